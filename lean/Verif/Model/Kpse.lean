import Verif.Model.Checkers

/-!
# Model of the processes of the checker for pdf

Models the processes that `PdfChecker.check_kpsewhich` of `/repo/src/disseminate/checkers/pdf.py` starts and waits for. What it finds is
in `Model/Checkers`.
-/

namespace Verif.Kpse

open Verif Verif.Checkers

/-- A process is started for a file, or its end is waited for. Processes have numbers in the order of their starts. -/
inductive Event
  | start (id : Nat) (file : Str)
  | wait (id : Nat)
deriving Repr, DecidableEq

mutual
/-- `check_kpsewhich(listing, ext)` (`checkers/pdf.py:46-78`) if `kpsewhich` is installed, from an item of a chunk of five
(`utils/list.py:131-147`) at the position `pos`. `n` is the number of the next process, `running` is the list `processes`. At the end of a
chunk and of the list the processes are waited for (`checkers/pdf.py:71-78`). The result has the number after the last process. -/
def listing (ext : Str) (n pos : Nat) (running : List Nat) : List Dep → List Event × Nat
  | [] => (running.map .wait, n)
  | d :: ds =>
    let r := item ext n d
    if pos = 4 then
      let s := listing ext r.2.1 0 [] ds
      (r.1 ++ ((running ++ r.2.2).map .wait ++ s.1), s.2)
    else
      let s := listing ext r.2.1 (pos + 1) (running ++ r.2.2) ds
      (r.1 ++ s.1, s.2)

/-- One item (`checkers/pdf.py:54-69`): a process for a program, or the same function for a list. The result has the processes that are
added to `processes`. -/
def item (ext : Str) (n : Nat) : Dep → List Event × Nat × List Nat
  | .prog name _ => ([.start n (name ++ ext)], n + 1, [n])
  | .group _ _ ds =>
    let s := listing ext n 0 [] ds
    (s.1, s.2, [])
end

/-- `check_kpsewhich(listing, ext)` (`checkers/pdf.py:35-78`), with whether `kpsewhich` is installed. -/
def events (installed : Bool) (ext : Str) (ds : List Dep) : List Event :=
  if installed then (listing ext 0 0 [] ds).1 else []

end Verif.Kpse
