import Verif.Version.Props
import Verif.Hash.Props
import Verif.Str.Props
import Verif.Path.Props
import Verif.Esc.Props
import Verif.Lex.Props
import Verif.Parse.Props
import Verif.Arr.Props
import Verif.Dict.Props
import Verif.Sched.Props
import Verif.Val.Props
import Verif.Interp.Props
import Verif.Range.Props
import Verif.Tree.Props
import Verif.Htab.Props
import Verif.Canon.Props
import Verif.Nlog.Props
import Verif.Dlog.Props
import Verif.Serial.Props
import Verif.Opt.Props
import Verif.Opt.Text
import Verif.Sha.Props
import Verif.Env.Props
import Verif.Sset.Props
import Verif.Tc.Props
import Verif.Args.Props
import Verif.Conf.Props
import Verif.Ini.Props
import Verif.Tap.Props
import Verif.Run.Props
import Verif.Buf.Props
import Verif.Memmem.Props
import Verif.Manifest.Props
import Verif.Ninja.Props
import Verif.Ninja.Rules
import Verif.Exec.Props
import Verif.Exec.Collected
import Verif.Depfile.Props
import Verif.Fmt.Props
import Verif.Rpath.Props
import Verif.Install.Perm
import Verif.Install.DestProps
import Verif.Install.RunProps
import Verif.Select.Props
import Verif.Deps.Props
import Verif.Names.Props
import Verif.Feature.Props
import Verif.Kinds.Props
import Verif.Lookup.Props
import Verif.Lookup.Fallback
import Verif.Tool.Model
import Verif.Tool.Spec
import Verif.Tool.Props
import Verif.Tool.Commands
import Verif.Tool.Compdb
import Verif.Pc.Model
import Verif.Pc.Spec
import Verif.Pc.Collect
import Verif.Pc.Read
import Verif.Pc.Vars
import Verif.Pc.Props
import Verif.Pc.Generate
import Verif.Pc.Place
import Verif.Pc.Counter
import Verif.Probe.Model
import Verif.Probe.Spec
import Verif.Probe.Cache
import Verif.Probe.Props
import Verif.Probe.More
import Verif.Probe.Counter
import Verif.Probe.Values
import Verif.Probe.Result
import Verif.Wrap.Model
import Verif.Wrap.Spec
import Verif.Wrap.Props
import Verif.Wrap.Provides
import Verif.Wrap.Fetch
import Verif.Wrap.Counter
import Verif.Sub.Model
import Verif.Sub.Spec
import Verif.Sub.Props
import Verif.Sub.More
import Verif.Sub.Counter
import Verif.Fsmod.Model
import Verif.Fsmod.Spec
import Verif.Fsmod.Props
import Verif.Cdata.Model
import Verif.Cdata.Spec
import Verif.Cdata.Lemmas
import Verif.Cdata.Props
import Verif.Cdata.More
import Verif.Cmdline.Model
import Verif.Cmdline.Spec
import Verif.Cmdline.Lemmas
import Verif.Cmdline.Base
import Verif.Cmdline.Props
import Verif.Cmdline.More
import Verif.Ctgt.Model
import Verif.Ctgt.Spec
import Verif.Ctgt.Lemmas
import Verif.Ctgt.Format
import Verif.Ctgt.Props
import Verif.Ctgt.Outs
import Verif.Prog.Model
import Verif.Prog.Spec
import Verif.Prog.Props
import Verif.Prog.Run
import Verif.Wrap.Command
import Verif.Odecl.Model
import Verif.Odecl.Spec
import Verif.Odecl.Lemmas
import Verif.Odecl.Props
import Verif.Odecl.Values
import Verif.Odecl.More
import Verif.Edcfg.Model
import Verif.Edcfg.Spec
import Verif.Edcfg.Lemmas
import Verif.Edcfg.Props
import Verif.Edcfg.Settings
import Verif.Ctgt.Targets
import Verif.Fsmod.Write
import Verif.Scope.Calls
import Verif.Scope.Loops
import Verif.Proj.Props
import Verif.Proj.Subs
import Verif.Mopts.Props
import Verif.Mopts.Help
import Verif.Tdecl.Envs
import Verif.Script.Props
import Verif.Dobj.Props
import Verif.Incdir.Props
import Verif.Import.Props
import Verif.Python.Props
import Verif.Machine.Props
import Verif.Ccdetect.Props
import Verif.Ccdetect.ChainProps
