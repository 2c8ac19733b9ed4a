import Verif.Lemmas.NttRing
import Mathlib.RingTheory.AdjoinRoot
import Mathlib.Tactic.Ring
/-!
# `negMul` is the multiplication of a commutative ring

`NR n` is `Fin n → ℤ` with the product of `Spec.negMul`.  The ring laws are those of
`ℤ[X]/(X^n + 1)`, into which coefficient vectors embed.
-/

namespace Shell
open Finset Spec NttRing Polynomial

/-- Coefficient vectors with the product modulo `X^n + 1`. -/
def NR (n : ℕ) : Type := Fin n → ℤ

namespace NR
variable {n : ℕ}

noncomputable def poly (f : Fin n → ℤ) : ℤ[X] := ∑ i : Fin n, C (f i) * X ^ (i : ℕ)

noncomputable def emb (f : Fin n → ℤ) : AdjoinRoot (X ^ n + 1 : ℤ[X]) := AdjoinRoot.mk _ (poly f)

theorem emb_eq_ev (f : Fin n → ℤ) :
    emb f = ev (fun i => AdjoinRoot.of (X ^ n + 1 : ℤ[X]) (f i)) (AdjoinRoot.root (X ^ n + 1 : ℤ[X])) := by
  unfold emb poly ev
  rw [map_sum]
  refine sum_congr rfl fun i _ => ?_
  rw [map_mul, AdjoinRoot.mk_C, map_pow, AdjoinRoot.mk_X]

theorem map_negMul {R S : Type*} [CommRing R] [CommRing S] (φ : R →+* S) (f g : Fin n → R) :
    (fun i => φ (negMul f g i)) = negMul (fun i => φ (f i)) (fun i => φ (g i)) := by
  funext k
  simp only [negMul, map_sum]
  refine sum_congr rfl fun i _ => sum_congr rfl fun j _ => ?_
  split_ifs <;> simp

theorem root_pow : AdjoinRoot.root (X ^ n + 1 : ℤ[X]) ^ n = -1 := by
  have h := AdjoinRoot.mk_self (f := (X ^ n + 1 : ℤ[X]))
  rw [map_add, map_pow, AdjoinRoot.mk_X, map_one] at h
  exact eq_neg_of_add_eq_zero_left h

theorem emb_mul (f g : Fin n → ℤ) : emb (negMul f g) = emb f * emb g := by
  rw [emb_eq_ev, emb_eq_ev, emb_eq_ev, map_negMul, ev_negMul _ _ _ root_pow]

theorem emb_add (f g : Fin n → ℤ) : emb (f + g) = emb f + emb g := by
  unfold emb poly
  rw [← map_add, ← sum_add_distrib]
  congr 1
  refine sum_congr rfl fun i _ => ?_
  rw [Pi.add_apply, map_add, add_mul]

theorem emb_inj [NeZero n] {f g : Fin n → ℤ} (h : emb f = emb g) : f = g := by
  unfold emb at h
  rw [← sub_eq_zero, ← map_sub, AdjoinRoot.mk_eq_zero] at h
  have hmon : (X ^ n + 1 : ℤ[X]).Monic := by
    have := monic_X_pow_add_C (1 : ℤ) (NeZero.ne n)
    simpa using this
  have hdeg : (poly f - poly g).degree < (X ^ n + 1 : ℤ[X]).degree := by
    have h1 : (X ^ n + 1 : ℤ[X]).degree = n := by
      have := degree_X_pow_add_C (Nat.pos_of_ne_zero (NeZero.ne n)) (1 : ℤ)
      simpa using this
    rw [h1]
    have h2 : ∀ f : Fin n → ℤ, (poly f).degree < n := fun f => by
      unfold poly
      refine (degree_sum_le _ _).trans_lt ?_
      rw [Finset.sup_lt_iff (by exact_mod_cast WithBot.bot_lt_coe n)]
      intro i _
      exact (degree_C_mul_X_pow_le _ _).trans_lt (by exact_mod_cast i.2)
    exact (degree_sub_le _ _).trans_lt (max_lt (h2 f) (h2 g))
  have h0 : poly f - poly g = 0 := by
    by_contra hne
    exact hmon.not_dvd_of_degree_lt hne hdeg h
  funext k
  have h3 := congrArg (fun p => coeff p (k : ℕ)) (sub_eq_zero.mp h0)
  have h4 : ∀ f : Fin n → ℤ, (poly f).coeff k = f k := fun f => by
    unfold poly
    rw [finset_sum_coeff, Finset.sum_eq_single k]
    · simp
    · intro i _ hi
      rw [coeff_C_mul_X_pow, if_neg (fun h => hi (Fin.ext h.symm))]
    · simp
  simpa only [h4] using h3

def one [NeZero n] : Fin n → ℤ := fun i => if (i : ℕ) = 0 then 1 else 0

theorem emb_one [NeZero n] : emb (one (n := n)) = 1 := by
  unfold emb poly one
  have : (∑ i : Fin n, C (if (i : ℕ) = 0 then (1 : ℤ) else 0) * X ^ (i : ℕ) : ℤ[X]) = 1 := by
    rw [Finset.sum_eq_single ⟨0, Nat.pos_of_ne_zero (NeZero.ne n)⟩]
    · simp
    · intro i _ hi
      rw [if_neg (fun h => hi (Fin.ext h))]
      simp
    · simp
  rw [this, map_one]

theorem emb_zero : emb (0 : Fin n → ℤ) = 0 := by
  unfold emb poly; simp

section laws
variable [NeZero n] (a b c : Fin n → ℤ)

theorem negMul_assoc : negMul (negMul a b) c = negMul a (negMul b c) :=
  emb_inj (by rw [emb_mul, emb_mul, emb_mul, emb_mul, mul_assoc])

theorem negMul_comm : negMul a b = negMul b a := emb_inj (by rw [emb_mul, emb_mul, mul_comm])

theorem one_negMul : negMul one a = a := emb_inj (by rw [emb_mul, emb_one, one_mul])

theorem negMul_one : negMul a one = a := emb_inj (by rw [emb_mul, emb_one, mul_one])

theorem zero_negMul : negMul 0 a = 0 := emb_inj (by rw [emb_mul, emb_zero, zero_mul])

theorem negMul_zero : negMul a 0 = 0 := emb_inj (by rw [emb_mul, emb_zero, mul_zero])

theorem negMul_add : negMul a (b + c) = negMul a b + negMul a c :=
  emb_inj (by rw [emb_mul, emb_add, emb_add, emb_mul, emb_mul, mul_add])

theorem add_negMul : negMul (a + b) c = negMul a c + negMul b c :=
  emb_inj (by rw [emb_mul, emb_add, emb_add, emb_mul, emb_mul, add_mul])

end laws

instance : AddCommGroup (NR n) := inferInstanceAs (AddCommGroup (Fin n → ℤ))

instance [NeZero n] : CommRing (NR n) :=
  { (inferInstance : AddCommGroup (NR n)) with
    mul := fun f g => negMul (n := n) f g
    one := one (n := n)
    mul_assoc := negMul_assoc (n := n)
    mul_comm := negMul_comm (n := n)
    one_mul := one_negMul (n := n)
    mul_one := negMul_one (n := n)
    zero_mul := zero_negMul (n := n)
    mul_zero := negMul_zero (n := n)
    left_distrib := negMul_add (n := n)
    right_distrib := add_negMul (n := n) }

/-- A coefficient vector as a ring element. -/
def mk (f : Fin n → ℤ) : NR n := f

theorem mk_mul [NeZero n] (f g : Fin n → ℤ) : mk (negMul f g) = mk f * mk g := rfl
theorem mk_add (f g : Fin n → ℤ) : mk (f + g) = mk f + mk g := rfl
theorem mk_sub (f g : Fin n → ℤ) : mk (f - g) = mk f - mk g := rfl
theorem mk_neg (f : Fin n → ℤ) : mk (-f) = - mk f := rfl
theorem mk_zero : mk (0 : Fin n → ℤ) = 0 := rfl
theorem mk_one [NeZero n] : mk (one (n := n)) = 1 := rfl
theorem mk_inj {f g : Fin n → ℤ} (h : mk f = mk g) : f = g := h

end NR
end Shell
