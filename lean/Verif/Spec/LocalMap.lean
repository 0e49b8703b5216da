import Verif.Model.LocalHeap
/-!
# What the pointers of a LocalMap show, in terms of the history

Every call of `Set` makes a variable of its own; the variables are numbered in the order of these calls.
-/
namespace Goir
namespace Spec
variable {T α : Type}

/-- `x` is what the last event of `h` says that says something. -/
def LastOf (P : List (LEv T) → LEv T → α → Prop) (h : List (LEv T)) (x : α) : Prop :=
  ∃ a e b, h = a ++ e :: b ∧ P a e x ∧ ∀ b₁ e' b₂ y, b = b₁ ++ e' :: b₂ → ¬ P (a ++ e :: b₁) e' y

/-- the number of calls of `Set`. -/
def sets (h : List (LEv T)) : Nat := h.countP fun e => match e with | .set _ _ => true | _ => false

/-- the number of calls of `Get`. -/
def gets (h : List (LEv T)) : Nat := h.countP fun e => match e with | .get _ => true | _ => false

/-- the last `Set` of the key was call number `j` of `Set`. -/
def LastSet (h : List (LEv T)) (k : String) (j : Nat) : Prop := LastOf (fun a e i => (∃ v, e = .set k v) ∧ sets a = i) h j

/-- call number `n` of `Get` has returned the address of variable `j`: its key had been set, the last time by call number `j` of `Set`. -/
def Got (h : List (LEv T)) (n j : Nat) : Prop := ∃ a k b, h = a ++ .get k :: b ∧ gets a = n ∧ LastSet a k j

/-- the event, after `a`, puts `v` into variable `j`: it makes it, or writes through a pointer to it. -/
def Puts (j : Nat) (a : List (LEv T)) (e : LEv T) (v : T) : Prop := ((∃ k, e = .set k v) ∧ sets a = j) ∨ ∃ n, e = .write n v ∧ Got a n j

/-- `v` is what was put into variable `j` last. -/
def Holds (h : List (LEv T)) (j : Nat) (v : T) : Prop := LastOf (Puts j) h v

end Spec
end Goir
