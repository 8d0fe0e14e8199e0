import Verif.Base
/-
Model of src/rpmvercmp.c and of the version_compare operator handling in src/functions/string.c.
-/
namespace Muon.Version
open Muon

/-- `memcmp(a, b, min(al, bl))` as used in src/rpmvercmp.c:121. Only the sign of the result matters. -/
def memcmp : Bytes → Bytes → Int
  | x :: xs, y :: ys => if x < y then -1 else if y < x then 1 else memcmp xs ys
  | _, _ => 0

/-- src/rpmvercmp.c:143-148, the code after the loop: `a` and `b` are what is left of the two strings. -/
def atEnd (a b : Bytes) : Int :=
  if a = [] ∧ b = [] then 0 else if a = [] then -1 else 1

/-- src/rpmvercmp.c:92-128, comparison of two segments of the same kind; `0` means "continue with the next
segment". `isnum` strips leading zeros (98-103) and lets the longer number win (106-111). -/
def segCmp (isnum : Bool) (sa sb : Bytes) : Int :=
  let sa := if isnum then sa.dropWhile (· == 48) else sa
  let sb := if isnum then sb.dropWhile (· == 48) else sb
  if isnum ∧ sa.length > sb.length then 1
  else if isnum ∧ sb.length > sa.length then -1
  else
    let rc := memcmp sa sb
    if rc ≠ 0 then (if rc < 1 then -1 else 1)
    else if sa.length ≠ sb.length then (if sa.length > sb.length then 1 else -1)
    else 0

theorem length_dropWhile_le (p : UInt8 → Bool) (l : Bytes) : (l.dropWhile p).length ≤ l.length := by
  induction l with
  | nil => simp
  | cons x xs ih => simp only [List.dropWhile_cons]; split <;> simp; omega

/-- The character class of the current segment, src/rpmvercmp.c:62-78. -/
def segPred (isnum : Bool) : UInt8 → Bool := if isnum then isDigit else isAlpha

/-- src/rpmvercmp.c:42-148, the loop. The indices `ai`, `bi` are modelled by the suffixes of the strings starting
there. `ap`/`bp` (62-78) are the ends of the leading digit (letter) runs. -/
def loop (a b : Bytes) : Int :=
  if a = [] ∨ b = [] then atEnd a b                                -- 43
  else
    let a1 := a.dropWhile (fun c => !isAlnum c)                    -- 44-46
    let b1 := b.dropWhile (fun c => !isAlnum c)                    -- 47-49
    match h : a1, b1 with
    | [], b1 => atEnd [] b1                                        -- 52-54
    | a1, [] => atEnd a1 []                                        -- 52-54
    | ca :: ra, cb :: rb =>
      let isnum := isDigit ca                                      -- 62
      let p := segPred isnum
      let sa := (ca :: ra).takeWhile p                             -- 63-65, 71-73
      let sb := (cb :: rb).takeWhile p                             -- 66-68, 74-76
      if sb = [] then (if isnum then 1 else -1)                    -- 88-90
      else
        let rc := segCmp isnum sa sb
        if rc ≠ 0 then rc
        else loop ((ca :: ra).dropWhile p) ((cb :: rb).dropWhile p) -- 133-136
termination_by a.length
decreasing_by
  have hle : (List.dropWhile (fun c => !isAlnum c) a).length ≤ a.length := length_dropWhile_le _ _
  have hca : isAlnum ca = true := by
    have := List.head?_dropWhile_not (fun c => !isAlnum c) a
    rw [show List.dropWhile (fun c => !isAlnum c) a = ca :: ra from h] at this
    simpa using this
  have hp : segPred (isDigit ca) ca = true := by
    by_cases hd : isDigit ca = true
    · simp [segPred, hd]
    · simp [segPred, hd]; simpa [isAlnum, hd] using hca
  rw [show List.dropWhile (fun c => !isAlnum c) a = ca :: ra from h] at hle
  have h2 := length_dropWhile_le (segPred (isDigit ca)) ra
  simp only [List.dropWhile_cons, hp, if_true] at *
  simp only [List.length_cons] at hle
  omega

/-- src/rpmvercmp.c:28-149. -/
def rpmvercmp (a b : Bytes) : Int :=
  if a = b then 0 else loop a b

/-- The operators of src/functions/string.c:277-284. -/
inductive Op | ge | gt | eq | ne | le | lt
  deriving DecidableEq, Repr

/-- src/functions/string.c:287-295, in table order. -/
def opTable : List (Bytes × Op) :=
  [(ascii ">=", .ge), (ascii ">", .gt), (ascii "==", .eq), (ascii "!=", .ne),
   (ascii "<=", .le), (ascii "<", .lt), (ascii "=", .eq)]

/-- src/functions/string.c:297-305: first table entry that is a prefix; its text is removed. -/
def splitOp (s : Bytes) : Op × Bytes :=
  match opTable.find? (fun e => e.1.isPrefixOf s) with
  | some (name, op) => (op, s.drop name.length)
  | none => (.eq, s)

/-- src/functions/string.c:309-328. -/
def opHolds (op : Op) (cmp : Int) : Bool :=
  match op with
  | .eq => cmp == 0
  | .ne => cmp != 0
  | .gt => cmp == 1
  | .ge => cmp ≥ 0
  | .lt => cmp == -1
  | .le => cmp ≤ 0

/-- `version_compare_iter` on one constraint, src/functions/string.c:272-335 (the value left in `ctx->res`). -/
def versionCompare1 (ver constraint : Bytes) : Bool :=
  let (op, ver2) := splitOp constraint
  opHolds op (rpmvercmp ver ver2)

/-- `version_compare` over an array of constraints, src/functions/string.c:337-351: iteration stops at the first
constraint that does not hold; `ctx.res` starts out `false` (line 340 zero-initialises it). -/
def versionCompare (ver : Bytes) (constraints : List Bytes) : Bool :=
  go false constraints
where
  go (res : Bool) : List Bytes → Bool
    | [] => res
    | c :: cs => if versionCompare1 ver c then go true cs else false

end Muon.Version
