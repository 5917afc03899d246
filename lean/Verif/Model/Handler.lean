import Verif.Model.Callback

/-!
# What Python code gets to see of the output

Model of the class `Output` (`pip/src/python.rs`) and of the class `OutputHandler` (`pip/qirrunner/__init__.py`).

Simplifications.  Python strings are strings of characters.  The handlers that exist are numbered.
-/

noncomputable section
namespace Qir.Run
open Qir.Out

variable {Q A σ : Type}

/-- `Output`, python.rs:16-17. -/
structure PyOutput where
  text : String

/-- `Output.__repr__`, python.rs:23-25. -/
def PyOutput.repr (o : PyOutput) : String := o.text

/-- `Output.__str__`, python.rs:27-29. -/
def PyOutput.str (o : PyOutput) : String := o.repr

/-- `Output._repr_html_`, python.rs:31-33. -/
def PyOutput.html (o : PyOutput) : String := "<p>" ++ o.text ++ "</p>"

/-- `OutputHandler`, \_\_init\_\_.py:7-11. -/
structure Handler where
  output : List String

/-- `OutputHandler.__init__`, \_\_init\_\_.py:13-14. -/
def Handler.new : Handler := ⟨[]⟩

/-- `OutputHandler.handle`, \_\_init\_\_.py:16-20. -/
def Handler.handle (h : Handler) (o : PyOutput) : Handler := ⟨h.output ++ [o.str]⟩

/-- `OutputHandler.get_output`, \_\_init\_\_.py:22-26. -/
def Handler.getOutput (h : Handler) : String := String.join h.output

open Classical in
/-- The `Output` made of bytes that are text, python.rs:42-49; others do not get that far. -/
def outputOf (b : Bytes) : PyOutput := if h : IsText b then ⟨h.choose⟩ else ⟨""⟩

/-- `output_fn=handler.handle` for one of the handlers: it raises no exception. pip/qirrunner/__init__.py:16-20. -/
def handlerFn (i : ℕ) (b : Bytes) (m : ℕ → Handler) : (ℕ → Handler) × Bool :=
  (Function.update m i ((m i).handle (outputOf b)), true)

/-- Python code with handlers. pip/src/python.rs:41-49 with pip/qirrunner/__init__.py:16-20. -/
def handlerCallback (i : ℕ) : Callback σ (ℕ → Handler) := fun b p =>
  .ok { p with mem := (handlerFn i b p.mem).1 }

/-- Calls of the module one after the other, each with `output_fn` one of the handlers; exceptions are caught.
pip/src/python.rs:72-130. -/
def handled (w : World Q A σ) : List (PyCall × ℕ) → Proc σ (ℕ → Handler) → Ran σ (ℕ → Handler)
  | [], p => .ok p
  | (c, i) :: cs, p =>
    match callIn w (handlerCallback i) c p with
    | .ok p => handled w cs p
    | .err _ p => handled w cs p
    | .panicked p => handled w cs p
    | .gone p => .gone p

end Qir.Run
