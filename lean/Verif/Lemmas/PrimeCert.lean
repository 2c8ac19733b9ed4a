import Mathlib.NumberTheory.LucasPrimality

/-! Primality of concrete moduli by Lucas certificates the kernel can evaluate. -/

namespace Shell

/-- `a^e mod m` by squaring, for `e < 2^fuel`. -/
def powMod (m : ℕ) : ℕ → ℕ → ℕ → ℕ
  | 0, _, _ => 1 % m
  | f + 1, a, e => if e % 2 = 1 then a * powMod m f (a * a % m) (e / 2) % m else powMod m f (a * a % m) (e / 2)

theorem powMod_eq (m : ℕ) : ∀ (f a e : ℕ), e < 2 ^ f → powMod m f a e = a ^ e % m
  | 0, a, e, h => by
    have : e = 0 := by simpa using h
    subst this
    simp [powMod]
  | f + 1, a, e, h => by
    have ih := powMod_eq m f (a * a % m) (e / 2) (by rw [pow_succ] at h; omega)
    have e1 : (a * a % m) ^ (e / 2) % m = a ^ (2 * (e / 2)) % m := by
      rw [← Nat.pow_mod, pow_mul, pow_two]
    rw [powMod, ih, e1]
    by_cases ho : e % 2 = 1
    · rw [if_pos ho, Nat.mul_mod, Nat.mod_mod, ← Nat.mul_mod, ← pow_succ', show 2 * (e / 2) + 1 = e by omega]
    · rw [if_neg ho, show 2 * (e / 2) = e by omega]

theorem cast_pow_eq_one_iff {p a e : ℕ} (hp : 1 < p) : (a : ZMod p) ^ e = 1 ↔ a ^ e % p = 1 := by
  rw [← Nat.cast_pow, ← Nat.cast_one, ZMod.natCast_eq_natCast_iff, Nat.ModEq, Nat.mod_eq_of_lt hp]

/-- The check of a Lucas certificate: `fs` are the primes of `p - 1` and `a` is a primitive root. -/
def lucasCheck (p a fuel : ℕ) (fs : List ℕ) (es : List ℕ) : Bool :=
  decide (1 < p) && decide (p - 1 < 2 ^ fuel) && decide (p - 1 = (List.zipWith (· ^ ·) fs es).prod) &&
    decide (powMod p fuel a (p - 1) = 1) && fs.all fun f => decide (powMod p fuel a ((p - 1) / f) ≠ 1)

theorem dvd_zipWith_pow {r : ℕ} (hr : r.Prime) : ∀ (fs es : List ℕ), (∀ f ∈ fs, f.Prime) →
    r ∣ (List.zipWith (· ^ ·) fs es).prod → r ∈ fs
  | [], _, _, h => by
    simp at h
    exact absurd h hr.one_lt.ne'
  | _ :: _, [], _, h => by
    simp at h
    exact absurd h hr.one_lt.ne'
  | f :: fs, e :: es, hf, h => by
    rw [List.zipWith_cons_cons, List.prod_cons] at h
    rcases (Nat.Prime.dvd_mul hr).mp h with h | h
    · have := (Nat.prime_dvd_prime_iff_eq hr (hf f (by simp))).mp (hr.dvd_of_dvd_pow h)
      simp [this]
    · exact List.mem_cons_of_mem _ (dvd_zipWith_pow hr fs es (fun g hg => hf g (by simp [hg])) h)

theorem prime_of_lucas {p : ℕ} (a fuel : ℕ) (fs es : List ℕ) (hf : ∀ f ∈ fs, f.Prime)
    (h : lucasCheck p a fuel fs es = true) : p.Prime := by
  unfold lucasCheck at h
  simp only [Bool.and_eq_true, decide_eq_true_eq, List.all_eq_true] at h
  obtain ⟨⟨⟨⟨h1, h2⟩, h3⟩, h4⟩, h5⟩ := h
  refine lucas_primality p (a : ZMod p) ?_ ?_
  · rw [cast_pow_eq_one_iff h1, ← powMod_eq p fuel a _ h2, h4]
  · intro r hr hd
    rw [Ne, cast_pow_eq_one_iff h1, ← powMod_eq p fuel a _ (lt_of_le_of_lt (Nat.div_le_self _ _) h2)]
    exact h5 r (dvd_zipWith_pow hr fs es hf (h3 ▸ hd))

end Shell
