import Verif.Spec.RnsEncoder
import Verif.Lemmas.RnsBasisUse
import Verif.Props.RnsBasis
import Verif.Props.RnsReduce
import Verif.Props.Convert
import Verif.Props.RnsContext
/-! The RNS encoders. -/

namespace Shell.Rns
open Spec Poly

variable {w l : ℕ}

theorem resize_coeffs {m : Modulus} (g : Good m.p w m.N) {n : ℕ} {v : List ℕ} (hn : v.length ≤ n)
    (F : ℕ → ℤ) (hle : ∀ a ∈ v, a ≤ m.N)
    (hv : ∀ i < v.length, (Mont.exportInt m.p (v.getD i 0) : ℤ) = F i % m.N)
    (h0 : ∀ i, v.length ≤ i → F i = 0) :
    CoeffsAre m n (resize n (Mont.importZero m.p) v) fun i => F i := by
  unfold resize
  refine ⟨by simp; omega, ?_, fun i => ?_⟩
  · intro a ha
    rcases List.mem_append.mp ha with ha | ha
    · exact hle a ha
    · rw [(List.mem_replicate.mp ha).2]; exact Nat.zero_le _
  · by_cases hi : (i : ℕ) < v.length
    · rw [List.getD_append _ _ _ _ hi]
      exact hv i hi
    · dsimp only
      rw [List.getD_append_right _ _ _ _ (by omega), h0 i (by omega)]
      have : (List.replicate (n - v.length) (Mont.importZero m.p)).getD ((i : ℕ) - v.length) 0 = 0 := by
        rw [List.getD_eq_getElem?_getD, List.getElem?_replicate]
        split <;> rfl
      rw [this]
      refine export_of_res g (Nat.zero_le _) ?_
      unfold res
      simp

theorem create_ok' {vs : List (List ℕ)} {b : Bool} (hne : vs ≠ []) (h : ∀ v ∈ vs, v.length = 2 ^ l) :
    create vs b = .ok ⟨l, vs, b⟩ := by
  cases vs with
  | nil => exact absurd rfl hne
  | cons v vs =>
    unfold create
    dsimp only
    rw [h v List.mem_cons_self, isNotPowerOfTwo_false]
    have : ((v :: vs).any fun u => u.length != 2 ^ l) = false := by
      rw [List.any_eq_false]
      intro u hu
      simp [h u hu]
    rw [this]
    simp [Nat.log2_two_pow]

theorem mapM_forall₂ {α β : Type} {f : α → Outcome β} {P : α → β → Prop} (L : List α)
    (h : ∀ i ∈ L, ∃ b, f i = .ok b ∧ P i b) : ∃ bs, L.mapM f = .ok bs ∧ List.Forall₂ P L bs := by
  induction L with
  | nil => exact ⟨[], rfl, .nil⟩
  | cons i L ih =>
    obtain ⟨b, b1, b2⟩ := h i List.mem_cons_self
    obtain ⟨bs, c1, c2⟩ := ih fun j hj => h j (List.mem_cons_of_mem _ hj)
    exact ⟨b :: bs, by rw [List.mapM_cons, b1, Outcome.bind_ok, c1]; rfl, .cons b2 c2⟩

theorem repr_encodeBgv {c : Rns.Ctx} {ms : List Modulus} (hg : ∀ m ∈ ms, GoodModulus w l m) (hne : ms ≠ [])
    (hl : c.logN = l) (ht : 0 < c.t) (htw : c.t < 2 ^ w) {msgs : List ℕ} (hn : msgs.length ≤ 2 ^ l) :
    ∃ x, encodeBgv c msgs ms = .ok x ∧ x.ntt = false ∧
      Represents l ms x fun i => balanced c.t (msgs.getD i 0 % c.t) := by
  obtain ⟨m0, hm0⟩ := List.exists_mem_of_ne_nil ms hne
  have hl15 := (hg m0 hm0).l15
  obtain ⟨cs, c1, c2⟩ := mapM_forall₂ (f := fun m : Modulus => (do
      let v ← Convert.importBalanced msgs c.t m.p
      return resize (2 ^ l) (Mont.importZero m.p) v : Outcome (List ℕ)))
    (P := fun m v => CoeffsAre m (2 ^ l) v fun i => balanced c.t (msgs.getD i 0 % c.t)) ms
    (fun m hm => by
      obtain ⟨r, r1, r2, r3⟩ := c33_import (hg m hm).create ht htw msgs
      refine ⟨_, by rw [r1]; rfl, ?_⟩
      refine resize_coeffs (hg m hm).good (by omega) (fun i => balanced c.t (msgs.getD i 0 % c.t)) ?_
        (fun i hi => (r3 i (by omega)).2) (fun i hi => ?_)
      · intro a ha
        obtain ⟨i, hi, rfl⟩ := List.getElem_of_mem ha
        have := (r3 i (by omega)).1
        rwa [List.getD_eq_getElem _ _ hi] at this
      · rw [List.getD_eq_default _ _ (by omega)]
        simp [balanced])
  have hcs : cs ≠ [] := by
    intro h
    rw [h] at c2
    cases c2
    exact hne rfl
  refine ⟨⟨l, cs, false⟩, ?_, rfl, rfl, c2⟩
  unfold encodeBgv shl1
  rw [hl, Int.toNat_natCast, if_pos (by omega), Outcome.bind_ok, if_neg (by omega),
    if_neg (by simpa using hne), c1, Outcome.bind_ok]
  refine create_ok' hcs fun v hv => ?_
  obtain ⟨m, _, h⟩ := forall₂_mem_left c2.flip v hv
  exact h.1

theorem repr_ensureCoeff {ms : List Modulus} {X : RPoly} {F : Fin (2 ^ l) → ℤ}
    (hg : ∀ m ∈ ms, GoodModulus w l m) (hX : Represents l ms X F) :
    ∃ r, ensureCoeff ms X = .ok r ∧ r.ntt = false ∧ Represents l ms r F := by
  unfold ensureCoeff
  by_cases hb : X.ntt = true
  · rw [if_pos hb]; exact repr_toCoeff hg hX hb
  · rw [if_neg hb]; exact ⟨X, rfl, by simpa using hb, hX⟩

theorem lsbBound_mono {t : ℕ} : ∀ (qs : List ℕ) {a b : ℚ}, a ≤ b → lsbBound t qs a ≤ lsbBound t qs b := by
  intro qs
  induction qs with
  | nil => intro a b h; exact h
  | cons q qs ih =>
    intro a b h
    refine ih ?_
    gcongr

theorem repr_decodeLoop {c : Rns.Ctx} {ms : List Modulus} (hg : ∀ m ∈ ms, GoodModulus w l m)
    (hinv : ∀ level m, ms[level]? = some m → ∃ row, c.primeQInvs[level]? = some row ∧
      InverseIs (ms.take level) (row.take level) m.N) (ht : 0 < c.t) (htw : c.t < 2 ^ w)
    (hcop : ∀ m ∈ ms, Nat.Coprime m.N c.t) : ∀ (k : ℕ), k < ms.length → ∀ (X : RPoly)
    (F : Fin (2 ^ l) → ℤ), Represents l (ms.take (k + 1)) X F → X.ntt = false →
    ∃ r G, decodeLoop c ms k X = .ok r ∧ r.ntt = false ∧ Represents l (ms.take 1) r G ∧
      ∀ i, G i % c.t = F i % c.t ∧
        |(G i : ℚ)| ≤ lsbBound c.t (dropOrder (ms.take (k + 1))) |(F i : ℚ)| := by
  intro k
  induction k with
  | zero =>
    intro hk X F hX hb
    refine ⟨X, F, rfl, hb, hX, fun i => ⟨rfl, ?_⟩⟩
    have : dropOrder (ms.take (0 + 1)) = [] := by
      cases ms with
      | nil => rfl
      | cons m ms => simp [dropOrder]
    rw [this]; exact le_refl _
  | succ k ih =>
    intro hk X F hX hb
    have hmk : ms[k + 1]? = some ms[k + 1] := List.getElem?_eq_getElem hk
    generalize ms[k + 1] = m at hmk
    have htk : ms.take (k + 1 + 1) = ms.take (k + 1) ++ [m] := by
      rw [List.take_add_one, hmk]; rfl
    obtain ⟨row, hr1, hr2⟩ := hinv (k + 1) m hmk
    have gm := hg m (List.mem_of_getElem? hmk)
    have hne : ms.take (k + 1) ≠ [] := by
      intro h
      have := congrArg List.length h
      rw [List.length_take, List.length_nil] at this
      omega
    have hlen := hr2.length_eq
    rw [List.length_take, List.length_take] at hlen
    rw [htk] at hX
    obtain ⟨r, G, g1, g2, g3, g4⟩ := c45_modReduceLsb
      (fun m' hm' => hg m' (List.mem_of_mem_take hm')) gm hne hX hr2 c.t ht htw
    rw [hb] at g2
    obtain ⟨r', G', e1, e2, e3, e4⟩ := ih (by omega) r G g3 g2
    refine ⟨r', G', ?_, e2, e3, fun i => ⟨?_, ?_⟩⟩
    · unfold decodeLoop
      rw [rd_some hr1, Outcome.bind_ok, if_neg (by omega), htk, g1, Outcome.bind_ok, e1]
    · rw [(e4 i).1, (g4 i).1 (hcop m (List.mem_of_getElem? hmk))]
    · refine (e4 i).2.trans ?_
      have hd : dropOrder (ms.take (k + 1 + 1)) = m.N :: dropOrder (ms.take (k + 1)) := by
        rw [htk]
        unfold dropOrder
        rw [List.tail_append_of_ne_nil hne]
        simp
      rw [hd]
      refine lsbBound_mono _ ?_
      have hN : (0 : ℚ) < m.N := by exact_mod_cast gm.prime.pos
      have h2 := (g4 i).2
      have h3 : (2 * (m.N : ℚ) * |(G i : ℚ)|) ≤ 2 * (m.N % c.t : ℕ) * |(F i : ℚ)| + c.t * m.N := by
        generalize m.N % c.t = r at h2
        have h3 := (Int.cast_le (R := ℚ)).mpr h2
        push_cast at h3
        exact h3
      rw [div_add' _ _ _ hN.ne', le_div_iff₀ hN]
      linarith

theorem exportFirst_ok {m : Modulus} (hm : MParams.create w m.N = .ok m.p) (hl : l ≤ 30) {x : RPoly}
    {F : Fin (2 ^ l) → ℤ} {rest : List Modulus} (hx : Represents l (m :: rest) x F) (hb : x.ntt = false) :
    exportFirst m x = .ok (List.ofFn fun i => (F i % m.N).toNat) := by
  obtain ⟨h1, h2⟩ := hx
  rw [hb] at h2
  obtain ⟨a, b, d⟩ := x
  dsimp only at *
  cases h2 with
  | @cons _ v _ vs hv hvs =>
    obtain ⟨v1, v2, v3⟩ : CoeffsAre m (2 ^ l) v F := hv
    subst h1
    unfold exportFirst shl1
    dsimp only
    rw [rd_some (by rfl : (v :: vs)[0]? = some v), Outcome.bind_ok, if_pos (by omega), Outcome.bind_ok]
    obtain ⟨bs, b1, b2⟩ := mapM_range (f := fun i => (do
        let a ← rd v i
        return Mont.exportInt m.p a : Outcome ℕ))
      (P := fun i r => ∀ h : i < 2 ^ a, r = (F ⟨i, h⟩ % m.N).toNat) (List.range (2 ^ a)) (fun i hi => by
        have hi' := List.mem_range.mp hi
        have hiv : i < v.length := by omega
        refine ⟨_, by rw [rd_some (List.getElem?_eq_getElem hiv)]; rfl, fun h => ?_⟩
        have := v3 ⟨i, h⟩
        rw [List.getD_eq_getElem _ _ hiv] at this
        omega)
    rw [b1]
    congr 1
    apply List.ext_getElem
    · rw [← b2.length_eq]; simp
    · intro j h1 h2
      have hjn : j < 2 ^ a := by simpa using h2
      obtain ⟨y, y1, y2⟩ := forall₂_get b2 j j (by simp [hjn])
      rw [List.getElem_ofFn, List.getElem_eq_iff, y1, y2 hjn]

theorem removeError_eq {W q t : ℕ} (ht : 0 < t) (htq : t ≤ q) (hq : q < 2 ^ W) {z : ℤ} (hz : 2 * |z| < q) :
    (if (z % q).toNat > q >>> 1 then trunc W (((z % q).toNat : ℤ) - (q % t : ℕ)) else (z % q).toNat) % t =
      (z % t).toNat := by
  obtain ⟨h1, h2⟩ := abs_lt.mp (show |z| < q by omega)
  have hsh : q >>> 1 = q / 2 := Nat.shiftRight_one q
  rw [hsh]
  rcases le_or_gt 0 z with h0 | h0
  · have e : (z % q) = z := Int.emod_eq_of_lt h0 h2
    have hz2 : 2 * z < q := by rw [abs_of_nonneg h0] at hz; exact hz
    rw [e, if_neg (by omega)]
    obtain ⟨n, rfl⟩ := Int.eq_ofNat_of_zero_le h0
    simp only [Int.toNat_natCast]
    have : ((n : ℤ) % t) = ((n % t : ℕ) : ℤ) := by push_cast; rfl
    rw [this, Int.toNat_natCast]
  · have hz2 : 2 * -z < q := by rw [abs_of_neg h0] at hz; exact hz
    have e : (z % q) = z + q := by
      rw [← Int.add_emod_right]; exact Int.emod_eq_of_lt (by omega) (by omega)
    have hr : 2 * (q % t) < q := by
      have h3 := Nat.mod_lt q ht
      have h4 : q % t + t ≤ q := by
        have h5 := Nat.div_add_mod q t
        have h6 : 1 ≤ q / t := (Nat.one_le_div_iff ht).mpr htq
        have h7 : t * 1 ≤ t * (q / t) := Nat.mul_le_mul_left _ h6
        omega
      omega
    obtain ⟨x, hx⟩ := Int.eq_ofNat_of_zero_le (show 0 ≤ z + q by omega)
    rw [e, hx]
    simp only [Int.toNat_natCast]
    have htr : trunc W ((x : ℤ) - (q % t : ℕ)) = x - q % t :=
      trunc_eq _ _ _ (by omega) (by omega)
    rw [if_pos (by omega), htr]
    have h8 : ((x - q % t : ℕ) : ℤ) % t = z % t := by
      have h9 : ((x - q % t : ℕ) : ℤ) = z + t * (q / t : ℕ) := by
        have := Nat.div_add_mod q t
        have h10 : ((x - q % t : ℕ) : ℤ) = x - (q % t : ℕ) := by omega
        have h11 : ((q : ℕ) : ℤ) = t * (q / t : ℕ) + (q % t : ℕ) := by exact_mod_cast this.symm
        rw [h10, ← hx]; linarith
      rw [h9, Int.add_mul_emod_self_left]
    rw [← h8]
    have : (((x - q % t : ℕ) : ℤ) % t) = ((((x - q % t) % t : ℕ)) : ℤ) := by push_cast; rfl
    rw [this, Int.toNat_natCast]

end Shell.Rns

namespace Shell.Rns
open Spec Poly

variable {w l : ℕ}

theorem take_length {α : Type} {qs ms : List α} {k : ℕ} (h : qs.take k = ms) : qs.take ms.length = ms := by
  subst h
  rw [List.length_take, ← List.take_eq_take_min]

theorem pairwise_coprime {ms : List Modulus} (hnd : (ms.map (·.N)).Nodup)
    (hg : ∀ m ∈ ms, GoodModulus w l m) : (ms.map (·.N)).Pairwise Nat.Coprime := by
  refine List.Pairwise.imp_of_mem (fun {a b} ha hb hab => ?_) hnd
  obtain ⟨m, hm, rfl⟩ := List.mem_map.mp ha
  obtain ⟨m', hm', rfl⟩ := List.mem_map.mp hb
  exact (Nat.coprime_primes (hg m hm).prime (hg m' hm').prime).mpr hab

theorem ceil_div (Q m t : ℕ) (ht : 0 < t) : ∃ y : ℕ, y < t ∧ (y : ZMod t) = -((Q : ZMod t) * m) ∧
    (t : ℤ) * ⌈(Q * m : ℚ) / t⌉ = Q * m + y := by
  have e : ⌈(Q * m : ℚ) / t⌉ = -((-((Q * m : ℕ) : ℤ)) / t) := by
    rw [← Rat.ceil_intCast_div_natCast]
    push_cast
    rfl
  obtain ⟨y, hy⟩ := Int.eq_ofNat_of_zero_le
    (Int.emod_nonneg (-((Q * m : ℕ) : ℤ)) (show (t : ℤ) ≠ 0 by omega))
  have hlt := Int.emod_lt_of_pos (-((Q * m : ℕ) : ℤ)) (show (0 : ℤ) < t by omega)
  have hd := Int.mul_ediv_add_emod (-((Q * m : ℕ) : ℤ)) t
  refine ⟨y, by omega, ?_, ?_⟩
  · have : ((y : ℤ) : ZMod t) = ((-((Q * m : ℕ) : ℤ) % t : ℤ) : ZMod t) := by rw [hy]
    rw [ZMod.intCast_mod] at this
    push_cast at this
    exact this
  · rw [e]
    rw [hy] at hd
    push_cast at hd ⊢
    linarith

theorem import_rep {p : MParams} {N n : ℕ} (g : Good p w N) {msgs : List ℕ} (hw : ∀ a ∈ msgs, a < 2 ^ w)
    (hn : msgs.length ≤ n) :
    Rep p N n (resize n (Mont.importZero p) (msgs.map (Mont.importInt p)))
      (fun i => ((msgs.getD i 0 : ℕ) : ZMod N)) := by
  have hN : p.modulus = N := g.hN
  subst hN
  let m : Modulus := ⟨p, noNtt⟩
  have gm : Good m.p w m.N := g
  have h := resize_coeffs (m := m) gm (n := n) (v := msgs.map (Mont.importInt p)) (by simpa using hn)
    (fun i => ((msgs.getD i 0 : ℕ) : ℤ)) (fun a ha => by
      obtain ⟨b, hb, rfl⟩ := List.mem_map.mp ha
      exact (import_spec gm (hw b hb)).1)
    (fun i hi => by
      have hi' : i < msgs.length := by simpa using hi
      have hb := import_spec gm (hw _ (List.getElem_mem hi'))
      rw [List.getD_eq_getElem _ _ hi, List.getElem_map]
      refine export_of_res gm hb.1 ?_
      rw [List.getD_eq_getElem _ _ hi', Int.cast_natCast]
      exact hb.2)
    (fun i hi => by
      rw [List.getD_eq_default _ _ (by simpa using hi)]; rfl)
  rw [coeffsAre_iff gm] at h
  have e : modq m.N (fun i : Fin n => ((msgs.getD i 0 : ℕ) : ℤ)) =
      fun i : Fin n => ((msgs.getD i 0 : ℕ) : ZMod p.modulus) := by
    funext i
    unfold modq
    exact Int.cast_natCast _
  rw [e] at h
  exact h

theorem encodeBfv_prefix {c : Rns.Ctx} {ms : List Modulus} (hne : ms ≠ [])
    (hl : c.logN = l) (hl30 : l ≤ 30) {mt : Modulus} (hmt : c.modT = some mt) {msgs : List ℕ}
    (hn : msgs.length ≤ 2 ^ l) (b : Bool) :
    encodeBfv c msgs ms b = (do
      let v := resize (2 ^ l) (Mont.importZero mt.p) (msgs.map (Mont.importInt mt.p))
      let v ← (if b then Poly.mulScalar mt.p v (Mont.negate mt.p (Mont.importInt mt.p c.qModT))
        else .ok v : Outcome (List ℕ))
      let x ← convertFrom v mt.p ms
      if b then mulRns ms x c.tInvModQs else .ok x) := by
  unfold encodeBfv shl1
  rw [hl, Int.toNat_natCast, if_pos (by omega), Outcome.bind_ok, if_neg (by omega),
    if_neg (by simpa using hne), hmt]

theorem repr_encodeBfv_unscaled {c : Rns.Ctx} {ms : List Modulus} (hg : ∀ m ∈ ms, GoodModulus w l m)
    (hne : ms ≠ []) (hl : c.logN = l) {mt : Modulus} (hmt : c.modT = some mt)
    (hcr : MParams.create w mt.N = .ok mt.p) {msgs : List ℕ} (hw : ∀ a ∈ msgs, a < 2 ^ w)
    (hn : msgs.length ≤ 2 ^ l) :
    ∃ x, encodeBfv c msgs ms false = .ok x ∧ x.ntt = true ∧
      Represents l ms x fun i => ((msgs.getD i 0 % mt.N : ℕ) : ℤ) := by
  obtain ⟨m0, hm0⟩ := List.exists_mem_of_ne_nil ms hne
  have hl15 := (hg m0 hm0).l15
  have g := good_of_create hcr
  obtain ⟨x, x1, x2, x3⟩ := repr_convertFrom hcr hg hne (import_rep g hw hn)
  refine ⟨x, ?_, x2, ?_⟩
  · rw [encodeBfv_prefix hne hl (by omega) hmt hn]
    simp only [Bool.false_eq_true, if_false]
    rw [Outcome.bind_ok, x1, Outcome.bind_ok]
  · simpa only [ZMod.val_natCast] using x3

theorem encodeBfv_scaled_mid {c : Rns.Ctx} {ms : List Modulus} (hg : ∀ m ∈ ms, GoodModulus w l m)
    (hne : ms ≠ []) (hl : c.logN = l) {mt : Modulus} (hmt : c.modT = some mt)
    (hcr : MParams.create w mt.N = .ok mt.p) {msgs : List ℕ} (hw : ∀ a ∈ msgs, a < 2 ^ w)
    (hn : msgs.length ≤ 2 ^ l) {Q : ℕ} (hQ : c.qModT = Q % mt.N) :
    ∃ x, encodeBfv c msgs ms true = mulRns ms x c.tInvModQs ∧ x.ntt = true ∧
      Represents l ms x fun i => mt.N * ⌈(Q * (msgs.getD i 0 % mt.N : ℕ) : ℚ) / mt.N⌉ -
        Q * (msgs.getD i 0 % mt.N : ℕ) := by
  obtain ⟨m0, hm0⟩ := List.exists_mem_of_ne_nil ms hne
  have hl15 := (hg m0 hm0).l15
  have g := good_of_create hcr
  haveI := neZero_of_create hcr
  have hpos : 0 < mt.N := Nat.pos_of_ne_zero (NeZero.ne _)
  have hq : c.qModT < 2 ^ w := by
    rw [hQ]; exact lt_trans (Nat.mod_lt _ hpos) (lt_word g)
  obtain ⟨q1, q2⟩ := import_spec g hq
  obtain ⟨r, r1, r2⟩ := (import_rep g hw hn).mulScalar g (negate_le g q1)
  obtain ⟨x, x1, x2, x3⟩ := repr_convertFrom hcr hg hne r2
  refine ⟨x, ?_, x2, ?_⟩
  · rw [encodeBfv_prefix hne hl (by omega) hmt hn]
    simp only [if_true]
    unfold Poly.mulScalar
    rw [r1]
    show (do let x ← convertFrom r mt.p ms; mulRns ms x c.tInvModQs) = _
    rw [x1, Outcome.bind_ok]
  · have e : (fun i : Fin (2 ^ l) => ((res mt.p mt.N (Mont.negate mt.p (Mont.importInt mt.p c.qModT)) *
        ((msgs.getD i 0 : ℕ) : ZMod mt.N)).val : ℤ)) = fun i : Fin (2 ^ l) =>
        mt.N * ⌈(Q * (msgs.getD i 0 % mt.N : ℕ) : ℚ) / mt.N⌉ - Q * (msgs.getD i 0 % mt.N : ℕ) := by
      funext i
      obtain ⟨y, y1, y2, y3⟩ := ceil_div Q (msgs.getD i 0 % mt.N) mt.N hpos
      rw [y3, res_negate g q1, q2, hQ, ZMod.natCast_mod, neg_mul]
      rw [ZMod.natCast_mod] at y2
      rw [← y2, ZMod.val_natCast, Nat.mod_eq_of_lt y1]
      ring
    rw [e] at x3
    exact x3

theorem repr_decodeBfv {c : Rns.Ctx} {ms : List Modulus} {k : ℕ} {mt : Modulus} (hc : GoodCtx w l c)
    (hb : BfvConstants c mt) (hcr : MParams.create w mt.N = .ok mt.p) (hN : mt.N = c.t)
    (hms : c.qs.take k = ms) (hne : ms ≠ []) {x : RPoly} {F M : Fin (2 ^ l) → ℤ}
    (hx : Represents l ms x F) {ε : ℚ} {est : Estimate} (he : EstimateWithin ms.length ε est) (hε : ε < 1 / 2)
    (hw : ms.length < 2 ^ w)
    (hM : ∀ i, |(c.t : ℚ) * F i - modulusProd ms * M i| < (1 / 2 - ε) * modulusProd ms) :
    decodeBfv est c x ms = .ok (List.ofFn fun i => (M i % c.t).toNat) := by
  have hmem : ∀ m ∈ ms, m ∈ c.qs := fun m hm => by rw [← hms] at hm; exact List.mem_of_mem_take hm
  have hg : ∀ m ∈ ms, GoodModulus w l m := fun m hm => hc.qs m (hmem m hm)
  obtain ⟨m0, hm0⟩ := List.exists_mem_of_ne_nil ms hne
  have hl15 := (hg m0 hm0).l15
  have htk := take_length hms
  have hlen0 : 0 < ms.length := List.length_pos_iff.mpr hne
  have hlen : ms.length ≤ c.qs.length := by
    have := congrArg List.length htk
    rw [List.length_take] at this
    omega
  obtain ⟨y, y1, y2, y3⟩ := repr_ensureCoeff hg hx
  obtain ⟨hatInv, h1, h2⟩ := hc.inverses.crtFactors (ms.length - 1) (by omega)
  have e1 : ((ms.length - 1 : ℕ) : ℤ) = (ms.length : ℤ) - 1 := by omega
  rw [e1] at h1
  rw [Nat.sub_add_cancel hlen0, htk] at h2
  have hcop : (ms.map (·.N)).Pairwise Nat.Coprime := by
    have hnd : (ms.map (·.N)).Nodup := by
      rw [← hms, List.map_take]
      exact ((List.nodup_append.mp hc.nodup).1).sublist (List.take_sublist _ _)
    exact pairwise_coprime hnd hg
  obtain ⟨r, G, r1, r2, r3, r4⟩ := c47_scale (outs := [mt]) (pMod := c.tModQs) (qInvMod := [c.qInvsModT])
    (fun m hm => (hg m hm).create) (by simpa using hcr) hcop hne (by simp) (by omega) y3 y2
    (by rw [List.take_of_length_le (by rw [← List.Forall₂.length_eq h2])]; exact h2)
    (by
      refine .cons ?_ .nil
      have := List.forall₂_take ms.length hb.qInvsModT
      rwa [htk] at this)
    (by
      have := List.forall₂_take ms.length hc.residues.tModQs
      rw [htk] at this
      have e : (modulusProd [mt] : ℤ) = c.t := by simp [modulusProd, hN]
      rw [e]
      exact this) he hε hw
  have hQ : 0 < modulusProd ms := List.prod_pos fun q hq => by
    obtain ⟨m, hm, rfl⟩ := List.mem_map.mp hq
    exact (hg m hm).prime.pos
  have hGM : G = M := by
    funext i
    have a1 := r4 i
    have a2 := hM i
    have e : ((modulusProd [mt] : ℕ) : ℚ) = c.t := by simp [modulusProd, hN]
    have e' : (((modulusProd [mt] : ℕ) : ℤ) : ℚ) = c.t := by rw [Int.cast_natCast, e]
    have hQ' : (0 : ℚ) < (modulusProd ms : ℕ) := by exact_mod_cast hQ
    have a3 : |(modulusProd ms : ℚ) * (G i - M i)| < modulusProd ms := by
      have a4 : (modulusProd ms : ℚ) * (G i - M i) =
          (c.t * F i - modulusProd ms * M i) - (c.t * F i - modulusProd ms * G i) := by ring
      rw [a4]
      have a5 : |(c.t : ℚ) * F i - modulusProd ms * G i| ≤ (1 / 2 + ε) * modulusProd ms := by
        rw [e'] at a1
        exact_mod_cast a1
      have := abs_sub ((c.t : ℚ) * F i - modulusProd ms * M i) (c.t * F i - modulusProd ms * G i)
      linarith
    rw [abs_mul, abs_of_pos hQ'] at a3
    have a6 : |((G i : ℚ) - M i)| < 1 := by
      by_contra h
      have := mul_le_mul_of_nonneg_left (not_lt.mp h) hQ'.le
      linarith
    have a7 : |G i - M i| < 1 := by exact_mod_cast a6
    have := Int.abs_lt_one_iff.mp a7
    omega
  subst hGM
  unfold decodeBfv
  rw [if_neg (by rw [hx.len]; simp), hb.modT]
  dsimp only
  rw [y1, Outcome.bind_ok, h1, Outcome.bind_ok, r1, Outcome.bind_ok,
    exportFirst_ok hcr (by omega) (rest := []) r3 r2, hN]

end Shell.Rns
