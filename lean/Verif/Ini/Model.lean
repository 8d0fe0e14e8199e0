import Verif.Lines.Mem
import Verif.Str.Model
/-
INI files: src/formats/ini.c.
-/
namespace Muon.Ini
open Muon Muon.Lines Muon.Str

/-- A call of the callback: section (`NULL` before the first), key and value (`NULL` for the start of a section), line. -/
structure Event where
  sect : Option Bytes
  kv : Option (Bytes × Bytes)
  line : Nat
  deriving DecidableEq, Repr

/-- `struct ini_parse_ctx`, ini.c:19-28; `octx` is what the callback changes. -/
structure St (σ : Type) where
  octx : σ
  sect : Option Bytes
  line : Nat
  success : Bool
  deriving DecidableEq, Repr

/-- Removing blanks from the end, ini.c:78-82 and 89-93. -/
def trimEnd (b : Bytes) : Bytes := (b.reverse.dropWhile isWhitespace).reverse

/-- Calling the callback, ini.c:61-63 and 95-97. -/
def call {σ : Type} (cb : σ → Event → σ × Bool) (st : St σ) (e : Event) : St σ :=
  let r := cb st.octx e
  { st with octx := r.1, success := if r.2 then st.success else false }

/-- `done_with_line`, ini.c:99-106. -/
def done {σ : Type} (st : St σ) : Res (St σ × Bool) :=
  if st.success = false then .ok (st, false) else .ok ({ st with line := st.line + 1 }, true)

/-- `ini_parse_line_cb`, ini.c:42-107. The line is a C string in the buffer; `first` says that it is at the start of the
buffer, where the loop that removes blanks before `=` reads the byte before the buffer if there is nothing else; the byte
before any other line is the NUL byte that was put there instead of the line end. -/
def line {σ : Type} (keyval : Bool) (cb : σ → Event → σ × Bool) (first : Bool) (st : St σ) (l : Bytes) : Res (St σ × Bool) :=
  match l with
  | [] => done st
  | c :: r =>
    if (if keyval then c == 35 else c == 59 || c == 35) || l.all isWhitespace then done st
    else if !keyval && c == 91 then
      if 93 ∈ l then
        let st := { st with sect := some (r.takeWhile (· ≠ 93)) }
        done (call cb st ⟨st.sect, none, st.line⟩)
      else done { st with success := false }
    else if 61 ∈ l then
      let k := l.takeWhile (· ≠ 61)
      if first && k.all isWhitespace then .bad
      else
        let v := (l.drop (k.length + 1)).dropWhile isWhitespace
        done (call cb st ⟨st.sect, some (trimEnd k, trimEnd v), st.line⟩)
    else if keyval then done st
    else done { st with success := false }

/-- `ini_parse`, `ini_reparse` and `keyval_parse`, ini.c:109-162, on the content of a file: the buffer is as long as the
file. The result is what the callback did and whether parsing succeeded. -/
def parse {σ : Type} (keyval : Bool) (cb : σ → Event → σ × Bool) (s : σ) (src : Bytes) : Res (σ × Bool) :=
  eachLineMem (line keyval cb) 0 (src.length + 1) true src ⟨s, none, 1, true⟩ >>= fun st => .ok (st.octx, st.success)

end Muon.Ini
