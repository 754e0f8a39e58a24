import Verif.Sem.Cmd
import Verif.Spec.BList
/- Driving a container with a list of calls: not code of the library, only its caller. -/
namespace Verif
open Spec

/-- Run the calls one after the other; the caller records results and catches exceptions.
`none` = undefined behaviour or non-termination occurred. -/
def history {σ V : Type} (exec : Op V → Cmd σ (Ret V)) : σ → List (Op V) → Option (σ × List (Res V))
  | s, [] => some (s, [])
  | s, o :: os =>
    match exec o s with
    | .ok r s' => (history exec s' os).map (fun p => (p.1, Res.ret r :: p.2))
    | .exn e s' => (history exec s' os).map (fun p => (p.1, Res.threw e :: p.2))
    | .ub _ => none
    | .diverge => none

end Verif
