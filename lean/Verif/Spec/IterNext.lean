import Verif.Model.IterNext
/-
What one expects of an iterator with `peek`: it reads a list.
-/

namespace Pacman.Iter

variable {σ β : Type}

/-- What the calls return if the items left are `l`. -/
def view : List β → List Call → List (Res β)
  | _, [] => []
  | l, .peek :: cs => .peeked l.head? :: view l cs
  | l, .hasNext :: cs => .has (!l.isEmpty) :: view l cs
  | [], .pop :: cs => .popped (.error .stopIteration) :: view [] cs
  | x :: l, .pop :: cs => .popped (.ok x) :: view l cs

/-- The iterator gives these items, none of which is `None`, and stops. Nothing is said of what it does when it is asked again. -/
inductive Gives (next : σ → Out β × σ) : σ → List β → Prop
  | stop {s : σ} : (next s).1 = .stop → Gives next s []
  | item {s s' : σ} {x : β} {l : List β} : next s = (.item (some x), s') → Gives next s' l → Gives next s (x :: l)

/-- The iterator first gives these items, none of which is `None`. -/
inductive Starts (next : σ → Out β × σ) : σ → List β → Prop
  | here {s : σ} : Starts next s []
  | item {s s' : σ} {x : β} {l : List β} : next s = (.item (some x), s') → Starts next s' l → Starts next s (x :: l)

/-- The state of the iterator once it has been asked `n` times. -/
def asked (next : σ → Out β × σ) : Nat → σ → σ
  | 0, s => s
  | n + 1, s => asked next n (next s).2

/-- The number of calls of `pop`. -/
def pops : List Call → Nat
  | [] => 0
  | .pop :: cs => pops cs + 1
  | _ :: cs => pops cs

end Pacman.Iter
