import Verif.Spec.RnsProgram
import Verif.Lemmas.InPlace
import Verif.Lemmas.RnsReduce
import Verif.Lemmas.RnsCreate
/-!
# Programs on RNS polynomials compute in the ring
-/

namespace Shell.Rns
open Spec Res MParams

variable {w l : ℕ} {ms : List Modulus}

theorem value_ok_eq {α : Type} {r : Res α} {y : α} (h : r.value = .ok y) : r = (y, .ok ()) := by
  obtain ⟨a, b⟩ := r
  cases b <;> simp_all [Res.value]

theorem rd_of {α : Type} {xs : List α} {i : ℕ} {x : α} (h : xs[i]? = some x) : rd xs i = .ok x := by
  simp [rd, h]

theorem onObject_ok {objs : List RPoly} {i : ℕ} {x y : RPoly} {f : RPoly → Res RPoly} (h : objs[i]? = some x)
    (hf : f x = (y, .ok ())) : onObject objs i f = (objs.set i y, .ok ()) := by
  unfold onObject
  rw [rd_of h]
  simp [withTemp, hf]

theorem onObject_err {objs : List RPoly} {i : ℕ} {x : RPoly} {f : RPoly → Res RPoly} {e : Status}
    (h : objs[i]? = some x) (hf : f x = (x, .err e)) : onObject objs i f = (objs, .err e) := by
  unfold onObject
  rw [rd_of h]
  simp only [withTemp, hf]
  obtain ⟨hi, rfl⟩ := List.getElem?_eq_some_iff.1 h
  rw [List.set_getElem_self]

theorem forall₂_write {α β : Type} {R : α → β → Prop} {xs : List α} {ys : List β} (h : List.Forall₂ R xs ys) {a : α} {b : β}
    (hab : R a b) (i : ℕ) : List.Forall₂ R (xs.set i a) (ys.set i b) := by
  induction h generalizing i with
  | nil => exact .nil
  | cons h1 h2 ih => cases i with
    | zero => exact .cons hab h2
    | succ i => exact .cons h1 (ih i)

theorem forall₂_at {α β : Type} {R : α → β → Prop} {xs : List α} {ys : List β} (h : List.Forall₂ R xs ys) {i : ℕ}
    (hi : i < ys.length) : ∃ x y, xs[i]? = some x ∧ ys[i]? = some y ∧ R x y := by
  induction h generalizing i with
  | nil => simp at hi
  | cons h1 h2 ih => cases i with
    | zero => exact ⟨_, _, rfl, rfl, h1⟩
    | succ i => simpa using ih (by simpa using hi)

theorem forall₂_push {α β : Type} {R : α → β → Prop} {xs : List α} {ys : List β} (h : List.Forall₂ R xs ys) {a : α} {b : β}
    (hab : R a b) : List.Forall₂ R (xs ++ [a]) (ys ++ [b]) := List.rel_append h (.cons hab .nil)

theorem _root_.Shell.Spec.Shows.len {x : RPoly} {y : IdealPoly l} (h : Shows ms x y) : x.coeffs.length = y.level := by
  rw [← h.2.2.2.length_eq, List.length_take]
  have := h.1
  omega

theorem bmod_centered {q : ℕ} [NeZero q] (hq : q % 2 = 1) (z : ℤ) : centered q (z : ZMod q) = z.bmod q := by
  have h1 := Int.le_bmod (x := z) (m := q) (by omega)
  have h2 := Int.bmod_lt (x := z) (m := q) (by omega)
  have h3 : ((z : ℤ) : ZMod q) = ((z.bmod q : ℤ) : ZMod q) := by
    rw [ZMod.intCast_eq_intCast_iff]
    exact (Int.bmod_emod).symm
  rw [h3]
  exact centered_eq q _ (by omega) (by omega)

theorem bmod_dvd (q : ℕ) (z : ℤ) : (q : ℤ) ∣ z - z.bmod q :=
  Int.dvd_of_emod_eq_zero ((Int.emod_emod_of_dvd _ (dvd_refl _)).symm.trans (by
    rw [Int.emod_emod_of_dvd _ (dvd_refl _)]
    exact Int.emod_eq_emod_iff_emod_sub_eq_zero.1 Int.bmod_emod.symm))

theorem exactQuotient_dvd {t q : ℕ} (z : ℤ) :
    (q : ℤ) ∣ (q % t : ℕ) * z + t * ((q / t : ℕ) * z).bmod q := by
  have h1 := (bmod_dvd q ((q / t : ℕ) * z)).mul_left (t : ℤ)
  have h2 : (q : ℤ) ∣ q * z := dvd_mul_right _ _
  have h3 : (q : ℤ) = t * (q / t : ℕ) + (q % t : ℕ) := by exact_mod_cast (Nat.div_add_mod q t).symm
  have := dvd_sub h2 h1
  have e : (q : ℤ) * z - t * ((q / t : ℕ) * z - ((q / t : ℕ) * z).bmod q) =
      (q % t : ℕ) * z + t * ((q / t : ℕ) * z).bmod q := by
    calc (q : ℤ) * z - t * ((q / t : ℕ) * z - ((q / t : ℕ) * z).bmod q)
        = (t * (q / t : ℕ) + (q % t : ℕ)) * z - t * ((q / t : ℕ) * z - ((q / t : ℕ) * z).bmod q) := by rw [← h3]
      _ = _ := by ring
  rwa [e] at this

theorem exactQuotient_mul {t q : ℕ} [NeZero q] (hq : q % 2 = 1) (ht : 0 < t) (z : ℤ) :
    (q : ℤ) * exactQuotient t q z = (q % t : ℕ) * z + t * centered q ((((q - q % t) / t : ℕ) * z : ℤ) : ZMod q) := by
  have h : (q - q % t) / t = q / t := by
    have h1 := Nat.div_add_mod q t
    rw [show q - q % t = t * (q / t) by omega, Nat.mul_div_cancel_left _ ht]
  rw [h, bmod_centered hq]
  exact Int.mul_ediv_cancel' (exactQuotient_dvd z)

/-- A call either succeeds as on the machine or is rejected as on the machine and changes nothing. -/
def Follows (ms : List Modulus) (objs : List RPoly) (r : Res (List RPoly)) (o : Option (List (IdealPoly l))) : Prop :=
  (∃ ids' objs', o = some ids' ∧ r = (objs', .ok ()) ∧ List.Forall₂ (Shows ms) objs' ids') ∨
  (o = none ∧ r = (objs, .err .invalidArgument))

theorem follows_on {objs : List RPoly} {ids : List (IdealPoly l)} {i : ℕ} {f : RPoly → Res RPoly} {x : RPoly}
    (hs : List.Forall₂ (Shows ms) objs ids) (hx : objs[i]? = some x) {P : Prop} [Decidable P] {y : IdealPoly l}
    (h1 : P → ∃ r, (f x).value = .ok r ∧ Shows ms r y) (h2 : ¬ P → f x = reject x) :
    Follows ms objs (onObject objs i f) (if P then some (ids.set i y) else none) := by
  by_cases hP : P
  · obtain ⟨r, r1, r2⟩ := h1 hP
    rw [if_pos hP]
    exact .inl ⟨_, _, rfl, onObject_ok hx (value_ok_eq r1), forall₂_write hs r2 i⟩
  · rw [if_neg hP]
    exact .inr ⟨rfl, onObject_err hx (h2 hP)⟩

theorem follows_new {objs : List RPoly} {ids : List (IdealPoly l)} {o : Outcome RPoly}
    (hs : List.Forall₂ (Shows ms) objs ids) {P : Prop} [Decidable P] {y : IdealPoly l}
    (h1 : P → ∃ r, o = .ok r ∧ Shows ms r y) (h2 : ¬ P → o = .err .invalidArgument) :
    Follows ms objs (fresh objs o) (if P then some (ids ++ [y]) else none) := by
  by_cases hP : P
  · obtain ⟨r, r1, r2⟩ := h1 hP
    rw [if_pos hP]
    exact .inl ⟨_, _, rfl, by simp [fresh, r1, withTemp], forall₂_push hs r2⟩
  · rw [if_neg hP]
    exact .inr ⟨rfl, by simp [fresh, h2 hP, withTemp]⟩

theorem take_len {k : ℕ} (h : k ≤ ms.length) : (ms.take k).length = k := by simp [h]

theorem exists_modulus {k : ℕ} (h1 : 1 < k) (h2 : k ≤ ms.length) :
    ∃ m, ms[k - 1]? = some m ∧ ms.take k = ms.take (k - 1) ++ [m] ∧ m ∈ ms := by
  refine ⟨ms[k - 1], by simp, ?_, List.getElem_mem _⟩
  have := List.take_concat_get' ms (k - 1) (by omega)
  rw [show k - 1 + 1 = k by omega] at this
  exact this.symm

theorem follows {invs : ℕ → List ℕ} (hg : ∀ m ∈ ms, GoodModulus w l m) (hne : ms ≠ [])
    (hinv : ∀ k m, ms[k]? = some m → InverseIs (ms.take k) (invs k) m.N) {objs : List RPoly} {ids : List (IdealPoly l)}
    {c : RingCall} (hs : List.Forall₂ (Shows ms) objs ids) (hp : c.Proper w ms ids) :
    Follows ms objs ((c.call l ms invs).run objs) (c.ideal ms ids) := by
  obtain ⟨hi, hk, hc⟩ := hp
  obtain ⟨m0, hm0⟩ := List.exists_mem_of_ne_nil ms hne
  have hl15 := (hg m0 hm0).l15
  have hgt : ∀ k, ∀ m ∈ ms.take k, GoodModulus w l m := fun k m hm => hg m (List.mem_of_mem_take hm)
  have hnet : ∀ k, k ≠ 0 → ms.take k ≠ [] := fun k hk h => by
    rw [List.take_eq_nil_iff] at h
    exact h.elim hk hne
  cases c with
  | zero k b =>
    simp only [RingCall.ideal, ← ite_not (p := k = 0)]
    refine follows_new hs (fun h => ?_) fun h => ?_
    · obtain ⟨r, r1, r2, r3⟩ := repr_createZero (hgt k) (hnet k h) b
      exact ⟨r, r1, hk, r2, r3⟩
    · simp [createZero, createConst, not_not.1 h]
  | one k =>
    simp only [RingCall.ideal, ← ite_not (p := k = 0)]
    refine follows_new hs (fun h => ?_) fun h => ?_
    · obtain ⟨r, r1, r2, r3⟩ := repr_createOne (hgt k) (hnet k h)
      exact ⟨r, r1, hk, r2, r3⟩
    · simp [createOne, createConst, not_not.1 h]
  | copy i =>
    obtain ⟨x, y, hx, hy, hxy⟩ := forall₂_at hs (hi i (by simp [RingCall.objects]))
    exact .inl ⟨_, _, by simp [RingCall.ideal, hy], by simp [RingCall.call, PolyCall.run, fresh, rd_of hx, withTemp],
      forall₂_push hs hxy⟩
  | toNtt i k =>
    obtain ⟨x, y, hx, hy, hxy⟩ := forall₂_at hs (hi i (by simp [RingCall.objects]))
    have hlen := hxy.len
    simp only [RingCall.ideal, hy, Option.bind_eq_bind, Option.bind_some]
    refine follows_on hs hx (fun h => ?_) fun h => ?_
    · obtain ⟨r, r1, r2, r3⟩ := repr_toNtt (hgt _) hxy.2.2 (hxy.2.1.trans h.1)
      rw [h.2, value_toNttIn]
      exact ⟨r, r1, hxy.1, r2, r3⟩
    · unfold toNttIn
      cases hn : x.ntt
      · rw [if_neg (by simp), if_pos]
        rw [take_len (k := k) hk, hlen]
        exact fun h' => h ⟨hxy.2.1.symm.trans hn, h'⟩
      · simp
  | toCoeff i k =>
    obtain ⟨x, y, hx, hy, hxy⟩ := forall₂_at hs (hi i (by simp [RingCall.objects]))
    have hlen := hxy.len
    simp only [RingCall.ideal, hy, Option.bind_eq_bind, Option.bind_some]
    refine follows_on hs hx (fun h => ?_) fun h => ?_
    · obtain ⟨r, r1, r2, r3⟩ := repr_toCoeff (hgt _) hxy.2.2 (hxy.2.1.trans h.1)
      rw [h.2, value_toCoeffIn]
      exact ⟨r, r1, hxy.1, r2, r3⟩
    · unfold toCoeffIn
      cases hn : x.ntt
      · simp
      · rw [if_neg (by simp), if_pos]
        rw [take_len (k := k) hk, hlen]
        exact fun h' => h ⟨hxy.2.1.symm.trans hn, h'⟩
  | negate i k =>
    obtain ⟨x, y, hx, hy, hxy⟩ := forall₂_at hs (hi i (by simp [RingCall.objects]))
    have hk' : k = y.level := hc y hy
    subst hk'
    obtain ⟨r, r1, r2, r3⟩ := repr_negate (hgt _) hxy.2.2
    exact .inl ⟨ids ++ [{ y with poly := -y.poly }], _, by simp [RingCall.ideal, hy],
      by simp [RingCall.call, PolyCall.run, fresh, rd_of hx, withTemp, r1],
      forall₂_push hs ⟨hxy.1, r2.trans hxy.2.1, r3⟩⟩
  | negateIn i k =>
    obtain ⟨x, y, hx, hy, hxy⟩ := forall₂_at hs (hi i (by simp [RingCall.objects]))
    have hlen := hxy.len
    simp only [RingCall.ideal, hy, Option.bind_eq_bind, Option.bind_some]
    refine follows_on hs hx (fun h => ?_) fun h => ?_
    · obtain ⟨r, r1, r2, r3⟩ := repr_negateInPlace (hgt _) hxy.2.2
      rw [h, value_negateIn]
      exact ⟨r, r1, hxy.1, r2.trans hxy.2.1, r3⟩
    · unfold Rns.negateIn
      rw [if_pos]
      rwa [take_len (k := k) hk, hlen]
  | mulInt i c k =>
    obtain ⟨x, y, hx, hy, hxy⟩ := forall₂_at hs (hi i (by simp [RingCall.objects]))
    have hlen := hxy.len
    simp only [RingCall.ideal, hy, Option.bind_eq_bind, Option.bind_some]
    refine follows_on hs hx (fun h => ?_) fun h => ?_
    · obtain ⟨r, r1, r2, r3⟩ := repr_mulInt (hgt _) hxy.2.2 hc
      rw [h, value_mulIntIn]
      exact ⟨r, r1, hxy.1, r2.trans hxy.2.1, r3⟩
    · unfold mulIntIn
      rw [if_pos]
      rwa [take_len (k := k) hk, hlen]
  | add i j k =>
    obtain ⟨x, y, hx, hy, hxy⟩ := forall₂_at hs (hi i (by simp [RingCall.objects]))
    obtain ⟨x', y', hx', hy', hxy'⟩ := forall₂_at hs (hi j (by simp [RingCall.objects]))
    have hlen := hxy.len
    have hlen' := hxy'.len
    simp only [RingCall.ideal, hy, hy', Option.bind_eq_bind, Option.bind_some, RingCall.call, PolyCall.run, rd_of hx',
      withTemp]
    refine follows_on hs hx (fun h => ?_) fun h => ?_
    · obtain ⟨r, r1, r2, r3⟩ := repr_add (hgt k) (h.1 ▸ hxy.2.2) (h.2 ▸ hxy'.2.2)
        (hxy.2.1.trans ((hc y y' hy hy').trans hxy'.2.1.symm))
      rw [value_addIn]
      exact ⟨r, r1, hxy.1, r2.trans hxy.2.1, h.1 ▸ r3⟩
    · unfold addIn
      by_cases h0 : x'.coeffs.length ≠ x.coeffs.length
      · rw [if_pos h0]
      · rw [if_neg h0, if_pos]
        rw [take_len (k := k) hk]
        omega
  | sub i j k =>
    obtain ⟨x, y, hx, hy, hxy⟩ := forall₂_at hs (hi i (by simp [RingCall.objects]))
    obtain ⟨x', y', hx', hy', hxy'⟩ := forall₂_at hs (hi j (by simp [RingCall.objects]))
    have hlen := hxy.len
    have hlen' := hxy'.len
    simp only [RingCall.ideal, hy, hy', Option.bind_eq_bind, Option.bind_some, RingCall.call, PolyCall.run, rd_of hx',
      withTemp]
    refine follows_on hs hx (fun h => ?_) fun h => ?_
    · obtain ⟨r, r1, r2, r3⟩ := repr_sub (hgt k) (h.1 ▸ hxy.2.2) (h.2 ▸ hxy'.2.2)
        (hxy.2.1.trans ((hc y y' hy hy').trans hxy'.2.1.symm))
      rw [value_subIn]
      exact ⟨r, r1, hxy.1, r2.trans hxy.2.1, h.1 ▸ r3⟩
    · unfold subIn
      by_cases h0 : x'.coeffs.length ≠ x.coeffs.length
      · rw [if_pos h0]
      · rw [if_neg h0, if_pos]
        rw [take_len (k := k) hk]
        omega
  | mul i j k =>
    obtain ⟨x, y, hx, hy, hxy⟩ := forall₂_at hs (hi i (by simp [RingCall.objects]))
    obtain ⟨x', y', hx', hy', hxy'⟩ := forall₂_at hs (hi j (by simp [RingCall.objects]))
    have hlen := hxy.len
    have hlen' := hxy'.len
    simp only [RingCall.ideal, hy, hy', Option.bind_eq_bind, Option.bind_some, RingCall.call, PolyCall.run, rd_of hx',
      withTemp]
    refine follows_on hs hx (fun h => ?_) fun h => ?_
    · obtain ⟨r, r1, r2, r3⟩ := repr_mul (hgt k) (h.1 ▸ hxy.2.2) (h.2.1 ▸ hxy'.2.2) (hxy.2.1.trans h.2.2.1)
        (hxy'.2.1.trans h.2.2.2)
      rw [value_mulIn]
      exact ⟨r, r1, hxy.1, r2.trans h.2.2.1.symm, h.1 ▸ r3⟩
    · unfold mulIn
      rw [← hxy.2.1, ← hxy'.2.1] at h
      have hk' := take_len hk
      split
      · rfl
      split
      · rfl
      split
      · rfl
      split
      · rfl
      · next h1 h2 h3 h4 => exact absurd ⟨by simp only [RingCall.moduli] at hk'; omega, by simp only [RingCall.moduli] at hk'; omega, by simpa using h3, by simpa using h4⟩ h
  | fusedMulAdd i j h k =>
    obtain ⟨x, y, hx, hy, hxy⟩ := forall₂_at hs (hi i (by simp [RingCall.objects]))
    obtain ⟨x', y', hx', hy', hxy'⟩ := forall₂_at hs (hi j (by simp [RingCall.objects]))
    obtain ⟨x'', y'', hx'', hy'', hxy''⟩ := forall₂_at hs (hi h (by simp [RingCall.objects]))
    have hlen := hxy.len
    have hlen' := hxy'.len
    have hlen'' := hxy''.len
    simp only [RingCall.ideal, hy, hy', hy'', Option.bind_eq_bind, Option.bind_some, RingCall.call, PolyCall.run, rd_of hx',
      rd_of hx'', withTemp]
    refine follows_on hs hx (fun h => ?_) fun h => ?_
    · obtain ⟨r, r1, r2, r3⟩ := repr_fusedMulAdd (hgt k) (h.1 ▸ hxy.2.2) (h.2.1 ▸ hxy'.2.2) (h.2.2.1 ▸ hxy''.2.2)
        (hxy.2.1.trans h.2.2.2.1) (hxy'.2.1.trans h.2.2.2.2.1) (hxy''.2.1.trans h.2.2.2.2.2)
      rw [value_fusedMulAddIn]
      exact ⟨r, r1, hxy.1, r2.trans h.2.2.2.1.symm, h.1 ▸ r3⟩
    · unfold fusedMulAddIn
      rw [← hxy.2.1, ← hxy'.2.1, ← hxy''.2.1] at h
      have hk' := take_len hk
      simp only [RingCall.moduli] at hk'
      split
      · rfl
      split
      · rfl
      split
      · rfl
      split
      · rfl
      split
      · rfl
      split
      · rfl
      · next h1 h2 h3 h4 h5 h6 => exact absurd ⟨by omega, by omega, by omega, by simpa using h4, by simpa using h5, by simpa using h6⟩ h
  | substitute i power k =>
    obtain ⟨x, y, hx, hy, hxy⟩ := forall₂_at hs (hi i (by simp [RingCall.objects]))
    have hlen := hxy.len
    have hk' := take_len hk
    simp only [RingCall.moduli] at hk'
    simp only [RingCall.ideal, hy, Option.bind_eq_bind, Option.bind_some, RingCall.call, PolyCall.run, rd_of hx, withTemp]
    refine follows_new hs (fun h => ?_) fun h => ?_
    · obtain ⟨r, r1, r2, r3⟩ := repr_substitute (k := power.toNat) (by omega) (hgt k) (h.2.2.2.1 ▸ hxy.2.2)
        (hxy.2.1.trans h.2.2.2.2) (by omega) (by
          have := h.2.2.1
          zify
          rw [Int.toNat_of_nonneg (by omega)]
          exact_mod_cast this)
      rw [Int.toNat_of_nonneg (by omega)] at r1
      exact ⟨r, r1, hxy.1, r2.trans h.2.2.2.2.symm, h.2.2.2.1 ▸ r3⟩
    · have h2 : 2 ^ x.logN ≤ 2 ^ 15 := Nat.pow_le_pow_right (by norm_num) (by rw [hxy.2.2.1]; omega)
      unfold Rns.substitute shl1
      rw [if_pos (by rw [hxy.2.2.1]; omega), Outcome.bind_ok]
      by_cases h0 : power < 0 ∨ power.tmod 2 = 0
      · rw [if_pos h0]
      · have t1 : power.tmod 2 = power % 2 := Int.tmod_eq_emod_of_nonneg (by omega)
        rw [if_neg h0, if_neg (by omega)]
        split
        · rfl
        split
        · rfl
        split
        · rfl
        · next h3 h4 h5 =>
          rw [← hxy.2.1] at h
          rw [hxy.2.2.1] at h3
          refine absurd ⟨by omega, by omega, ?_, by omega, by simpa using h5⟩ h
          push_cast at h3
          omega
  | modReduceLsb i t k =>
    obtain ⟨x, y, hx, hy, hxy⟩ := forall₂_at hs (hi i (by simp [RingCall.objects]))
    have hlen := hxy.len
    have hk' := take_len hk
    simp only [RingCall.moduli] at hk' hk
    simp only [RingCall.ideal, hy, Option.bind_eq_bind, Option.bind_some]
    refine follows_on hs hx (fun h => ?_) fun h => ?_
    · obtain ⟨m, m1, m2, m3⟩ := exists_modulus h.2 hk
      have hgm := hg m m3
      haveI : NeZero m.N := ⟨hgm.prime.ne_zero⟩
      have hX := hxy.2.2
      rw [← h.1, m2] at hX
      have hq : modulusAt ms (k - 1) = m.N := by simp [modulusAt, m1]
      rw [hq, value_modReduceLsbIn, m2]
      obtain ⟨r, r1, r2, r3⟩ := repr_modReduceLsb (hgt (k - 1)) hgm (hnet _ (by omega)) hX (hinv _ _ m1) hc.1 hc.2
        (G := fun j => exactQuotient t m.N (y.poly j)) (fun j => exactQuotient_mul hgm.good.odd hc.1 _)
      exact ⟨r, r1, by show k - 1 ≤ _; omega, r2.trans hxy.2.1, r3⟩
    · unfold modReduceLsbIn
      split
      · rfl
      split
      · rfl
      · next h1 h2 => exact absurd ⟨by omega, by omega⟩ h
  | modReduceMsb i k =>
    obtain ⟨x, y, hx, hy, hxy⟩ := forall₂_at hs (hi i (by simp [RingCall.objects]))
    have hlen := hxy.len
    have hk' := take_len hk
    simp only [RingCall.moduli] at hk' hk
    simp only [RingCall.ideal, hy, Option.bind_eq_bind, Option.bind_some]
    refine follows_on hs hx (fun h => ?_) fun h => ?_
    · obtain ⟨m, m1, m2, m3⟩ := exists_modulus h.2 hk
      have hgm := hg m m3
      haveI : NeZero m.N := ⟨hgm.prime.ne_zero⟩
      have hX := hxy.2.2
      rw [← h.1, m2] at hX
      have hq : modulusAt ms (k - 1) = m.N := by simp [modulusAt, m1]
      rw [hq, value_modReduceMsbIn, m2]
      obtain ⟨r, r1, r2, r3⟩ := repr_modReduceMsb (hgt (k - 1)) hgm (hnet _ (by omega)) hX (hinv _ _ m1)
        (G := fun j => nearestQuotient m.N (y.poly j)) (fun j => by
          rw [bmod_centered hgm.good.odd]
          exact Int.mul_ediv_cancel' (bmod_dvd _ _))
      exact ⟨r, r1, by show k - 1 ≤ _; omega, r2.trans hxy.2.1, r3⟩
    · unfold modReduceMsbIn
      split
      · rfl
      split
      · rfl
      · next h1 h2 => exact absurd ⟨by omega, by omega⟩ h
  | detach i =>
    obtain ⟨x, y, hx, hy, hxy⟩ := forall₂_at hs (hi i (by simp [RingCall.objects]))
    have hlen := hxy.len
    simp only [RingCall.ideal, hy, Option.bind_eq_bind, Option.bind_some, ← ite_not (p := y.level = 0)]
    refine follows_on hs hx (fun h => ?_) fun h => ?_
    · have hlast : x.coeffs ≠ [] := fun h' => by rw [h'] at hlen; simp at hlen; omega
      have hf := hxy.2.2.2
      refine ⟨⟨x.logN, x.coeffs.dropLast, x.ntt⟩, ?_, ?_⟩
      · simp [detachIn, detachLast, withTemp, List.getLast?_eq_some_getLast hlast]
      · refine ⟨(Nat.sub_le _ _).trans hxy.1, hxy.2.1, hxy.2.2.1, ?_⟩
        have := List.forall₂_take (y.level - 1) hf
        rw [List.take_take, min_eq_left (Nat.sub_le _ _)] at this
        rw [List.dropLast_eq_take, hlen]
        exact this
    · have : x.coeffs = [] := List.eq_nil_of_length_eq_zero (by omega)
      simp [detachIn, detachLast, this, withTemp, reject]

end Shell.Rns
