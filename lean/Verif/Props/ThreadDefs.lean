import Verif.Model.Threads

/-!
# What the property theorems about threads talk about
-/

namespace Qir.Run

open Qir.Out

variable {Q A σ ι : Type}

/-- The calls of a thread made in a process of its own (`Model/Entry`): their answers, and how it ends. -/
def alone (w : World Q A σ) : List PyCall → σ → Io → List (Option EntryError) × Outcome σ
  | [], s, io => ([], .ok s io)
  | c :: cs, s, io =>
    match w.call c s io with
    | .ok s io => (none :: (alone w cs s io).1, (alone w cs s io).2)
    | .rejected e s io => (some e :: (alone w cs s io).1, (alone w cs s io).2)
    | .ended io => ([], .ended io)

/-- The output of a process. -/
def Outcome.io : Outcome σ → Io
  | .ok _ io => io
  | .rejected _ _ io => io
  | .ended io => io

/-- The process has ended before its calls were through. -/
def Outcome.Dies : Outcome σ → Prop
  | .ended _ => True
  | _ => False

/-- What a thread would say and do in a process of its own that begins with what belongs to the thread. -/
def own (w : World Q A σ) (cs : List PyCall) (l : Local σ) : List (Option EntryError) × Outcome σ :=
  alone w cs l.s ⟨[], l.recorder, l.sink⟩

open Classical in
/-- The part of one thread in a text of which it is known who has written which byte. -/
noncomputable def part (i : ι) (text : List (ι × UInt8)) : Bytes := (text.filter fun x => decide (x.1 = i)).map Prod.snd

/-- The thread has got its answers, and this is what belongs to it. -/
def Threads.Through (g : Threads ι σ) (i : ι) (answers : List (Option EntryError)) (l : Local σ) : Prop :=
  g.thread i = (.ret answers, l)

end Qir.Run
