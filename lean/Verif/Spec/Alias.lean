import Verif.Model.Alias
/-!
# Operands that are the same object

Two C++ objects that own their vectors are either one object or share no memory.
-/

namespace Shell.Alias
open Rns

/-- The object is in memory, in vectors of its own. -/
def Stored (h : Heap) (ls : List ℕ) : Prop := ls.Nodup ∧ ∀ l ∈ ls, l < h.length

/-- The second object is the first one itself or shares no memory with it; objects are given by the locations of
their vectors. -/
def SameOrApart (xs ys : List ℕ) : Prop := ys = xs ∨ ∀ l ∈ xs, l ∉ ys

/-- The second ciphertext is the first one itself or shares no memory with it. -/
def CtSameOrApart (x y : CObj) : Prop := y.c = x.c ∨ ∀ l ∈ x.locs, l ∉ y.locs

/-- The memory outside of the locations `ls` is unchanged. -/
def Frame (h h' : Heap) (ls : List ℕ) : Prop := h'.length = h.length ∧ ∀ l, l ∉ ls → h'[l]? = h[l]?

/-- An operation on the object at the locations `ls`, which held `x`, left the memory `r.1`, in which the object holds `v`,
and returned `r.2`.  It had the effect and the status `s` that the operation has on values, and no other effect. -/
def SameAs {V : Type} (h : Heap) (ls : List ℕ) (r : Res Heap) (v : V) (s : Res V) : Prop :=
  v = s.1 ∧ r.2 = s.2 ∧ Frame h r.1 ls

/-- What a polynomial holds after it was multiplied by a reference to its own coefficient `c` with the index `k`: the
elements up to `k` are multiplied by `c`, the later ones by `c * c`. -/
def scalarAliased (f : ℕ → ℕ → ℕ) (x : List ℕ) (k c : ℕ) : List ℕ :=
  x.mapIdx fun i a => if i ≤ k then f a c else f a (f c c)


end Shell.Alias
