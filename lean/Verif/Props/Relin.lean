import Verif.Lemmas.PrimeCert
import Verif.Lemmas.Relin
import Verif.Props.Symmetric
import Verif.Props.Transcription
/-!
# Properties C26-C28: base decomposition, relinearization keys, Galois keys
-/

namespace Shell
open Spec NttRing Sym Finset Relin
open MParams

variable {C : Ctx}

/-! ## C26 -/

theorem digitsLoop_spec {p : MParams} {w N : ℕ} (g : Good p w N) (b d : ℕ) (cur : List ℕ) :
    (Gadget.digitsLoop p (2 ^ b - 1) b d cur) =
      (List.range d).map fun j => cur.map fun x => Mont.importInt p (digit b j x) := by
  induction d generalizing cur with
  | zero => rfl
  | succ d ih =>
    rw [Gadget.digitsLoop, ih, List.range_succ_eq_map, List.map_cons, List.map_map]
    congr 1
    · apply List.map_congr_left; intro x _; rw [and_mask, digit_zero]
    · apply List.map_congr_left
      intro j _
      simp only [Function.comp, List.map_map]
      apply List.map_congr_left
      intro x _
      simp only [Function.comp]
      rw [digit_succ]

/-- C26: for every modulus, base `2^b` and coefficient vector, `GadgetSize` is the least number `d` of
digits with `d * b ≥ log q`, and `BaseDecompose` returns `d` vectors of digits below `2^b` whose sum
weighted by powers of the base is the input. -/
theorem c26_base_decompose {w N : ℕ} {p : MParams} (h : create w N = .ok p) (hw : w ≤ 128)
    (v : List ℕ) (hv : ∀ x ∈ v, x ≤ N) (b : ℕ) (hb : 0 < b) (hbw : b < w) :
    ∃ d D, Gadget.gadgetSize p.logModulus b = .ok d ∧ p.logModulus ≤ d * b ∧
      (d - 1) * b < p.logModulus ∧ 0 < d ∧
      Gadget.baseDecompose p v b d = .ok D ∧ D.length = d ∧
      (∀ j < d, (D.getD j []).length = v.length) ∧
      ∀ i < v.length,
        (∀ j < d, (D.getD j []).getD i 0 < N ∧
          Mont.exportInt p ((D.getD j []).getD i 0) < 2 ^ b) ∧
        ∑ j ∈ range d, Mont.exportInt p ((D.getD j []).getD i 0) * (2 ^ b) ^ j =
          Mont.exportInt p (v.getD i 0) := by
  have g := good_of_create h
  obtain ⟨l1, l2, l3, l4, l5⟩ := logModulus_facts h hw
  obtain ⟨one, m1, m2, m3⟩ := mask_eq hbw
  have h4 := g.lt
  have dm := Nat.div_add_mod (p.logModulus + (b - 1)) b
  have dl := Nat.mod_lt (p.logModulus + (b - 1)) hb
  have hd0 : 0 < (p.logModulus + (b - 1)) / b := Nat.div_pos (by omega) hb
  have hlt : ∀ x ∈ v, Mont.exportInt p x < N := fun x hx =>
    exportInt_lt g x (by have := hv x hx; omega) (Or.inr (hv x hx))
  generalize hdd : (p.logModulus + (b - 1)) / b = d at *
  refine ⟨d, (List.range d).map fun j => (v.map (Mont.exportInt p)).map fun x =>
      Mont.importInt p (digit b j x), ?_, ?_, ?_, hd0, ?_, by simp, ?_, ?_⟩
  · unfold Gadget.gadgetSize; rw [if_neg (by omega), hdd]
  · rw [mul_comm]; omega
  · obtain ⟨e, rfl⟩ : ∃ e, d = e + 1 := ⟨d - 1, by omega⟩
    rw [Nat.add_sub_cancel]
    have : b * (e + 1) = e * b + b := by ring
    omega
  · unfold Gadget.baseDecompose
    dsimp only
    rw [g.hw, m1, Outcome.bind_ok, m3, digitsLoop_spec g]
    rfl
  · intro j hj
    rw [List.getD_eq_getElem _ _ (by simpa using hj)]
    simp
  · intro i hi
    have hx := hlt _ (List.getElem_mem hi)
    have hget : ∀ j < d, (((List.range d).map fun j => (v.map (Mont.exportInt p)).map fun x =>
        Mont.importInt p (digit b j x)).getD j []).getD i 0 =
        Mont.importInt p (digit b j (Mont.exportInt p (v.getD i 0))) := by
      intro j hj
      rw [List.getD_eq_getElem (l := List.map _ _) (hn := by simpa using hj), List.getElem_map,
        List.getElem_range, List.map_map, List.getD_eq_getElem (l := List.map _ _)
          (hn := by simpa using hi), List.getElem_map, List.getD_eq_getElem _ _ hi]
      rfl
    have hdig : ∀ j, digit b j (Mont.exportInt p (v.getD i 0)) < N := by
      intro j
      rw [List.getD_eq_getElem _ _ hi]
      refine lt_of_le_of_lt ?_ hx
      exact le_trans (Nat.mod_le _ _) (Nat.div_le_self _ _)
    have hexp : ∀ j, Mont.exportInt p (Mont.importInt p (digit b j (Mont.exportInt p (v.getD i 0)))) =
        digit b j (Mont.exportInt p (v.getD i 0)) := by
      intro j
      have := hdig j
      have e := export_import g _ (by omega : digit b j (Mont.exportInt p (v.getD i 0)) < 2 ^ w)
      rw [Nat.mod_eq_of_lt this] at e
      exact e
    refine ⟨fun j hj => ?_, ?_⟩
    · rw [hget j hj, hexp]
      exact ⟨importInt_lt g _ (by have := hdig j; omega), digit_lt _ _ _⟩
    · calc _ = ∑ j ∈ range d, digit b j (Mont.exportInt p (v.getD i 0)) * (2 ^ b) ^ j := by
            apply sum_congr rfl
            intro j hj
            rw [hget j (mem_range.mp hj), hexp]
        _ = _ := by
            apply sum_digit_eq
            rw [List.getD_eq_getElem _ _ hi]
            refine lt_trans hx ?_
            rw [← hdd]
            exact gadget_fits hb l1

/-- C26: a base of zero bits divides by zero, one as wide as the word is an over-wide shift. -/
theorem c26_bad_bases (p : MParams) (v : List ℕ) (b d : ℕ) :
    Gadget.gadgetSize p.logModulus 0 = .ub .divByZero ∧
    (p.w ≤ b → 32 ≤ b → Gadget.baseDecompose p v b d = .ub .badShift) := by
  refine ⟨rfl, fun h h' => ?_⟩
  unfold Gadget.baseDecompose Transcription.shl
  dsimp only
  rw [if_neg (by omega), Outcome.bind_ub]

/-- The decomposition on stored words refines the one on residues used by the keys below. -/
theorem c26_refines {w N l : ℕ} {p : MParams} (h : create w N = .ok p) (psi : ZMod N)
    {v : List ℕ} {F : Fin (2 ^ l) → ZMod N} (hr : Poly.Rep p N (2 ^ l) v F) (b d : ℕ) (hbw : b < w) :
    ∃ D D', Gadget.baseDecompose p v b d = .ok D ∧ (Ctx.mk w N l psi).baseDecompose F b d = .ok D' ∧
      D.length = D'.length ∧ ∀ j < d, Poly.Rep p N (2 ^ l) (D.getD j []) (D'.getD j 0) := by
  have g := good_of_create h
  obtain ⟨one, m1, m2, m3⟩ := mask_eq hbw
  refine ⟨(List.range d).map fun j => (v.map (Mont.exportInt p)).map fun x =>
      Mont.importInt p (digit b j x), _, ?_, baseDecompose_eq (C := ⟨w, N, l, psi⟩) hbw d F,
      by simp, ?_⟩
  · unfold Gadget.baseDecompose
    dsimp only
    rw [g.hw, m1, Outcome.bind_ok, m3, digitsLoop_spec g]
    rfl
  · intro j hj
    rw [List.getD_eq_getElem _ _ (by simpa using hj), List.getD_eq_getElem _ _ (by simpa using hj)]
    simp only [List.getElem_map, List.getElem_range, List.map_map]
    have h4 := g.lt
    have key : ∀ i (hi : i < v.length),
        Mont.exportInt p v[i] < N ∧ digit b j (Mont.exportInt p v[i]) < N := by
      intro i hi
      have := hr.le i (by rw [← hr.len]; exact hi)
      rw [List.getD_eq_getElem _ _ hi] at this
      have hx := exportInt_lt g v[i] (by omega) (Or.inr this)
      exact ⟨hx, lt_of_le_of_lt (le_trans (Nat.mod_le _ _) (Nat.div_le_self _ _)) hx⟩
    refine ⟨by simp [hr.len], fun i hi => ?_, fun i => ?_⟩
    · have hi' : i < v.length := by rw [hr.len]; exact hi
      rw [List.getD_eq_getElem _ _ (by simpa using hi')]
      simp only [List.getElem_map, Function.comp]
      exact (importInt_lt g _ (by have := (key i hi').2; omega)).le
    · have hi' : (i : ℕ) < v.length := by rw [hr.len]; exact i.2
      rw [List.getD_eq_getElem _ _ (by simpa using hi')]
      simp only [List.getElem_map, Function.comp]
      have e := hr.val i
      have hle := hr.le i i.2
      rw [List.getD_eq_getElem _ _ hi'] at e hle
      rw [res_import g (by have := (key i hi').2; omega), ← e]
      congr 2
      exact export_eq_val g hle

example : ∃ D, Gadget.baseDecompose (make 16 12289) [Mont.importInt (make 16 12289) 11813] 5 3 = .ok D ∧
    D.map (fun v => v.map (Mont.exportInt (make 16 12289))) = [[5], [17], [11]] ∧
    5 + 17 * 32 + 11 * 32 ^ 2 = 11813 := by
  refine ⟨_, rfl, ?_⟩
  decide +kernel

/-! ## C27 -/

/-- Substituting `X -> X` changes nothing. -/
theorem subst_id {R : Type*} {l : ℕ} (hl : l ≤ 32) (F : Fin (2 ^ l) → R) : subst l 1 F = F := by
  funext x
  unfold subst
  congr 1
  apply Fin.ext
  have h1 := Ntt.bitrev_lt l x hl
  rw [Fin.val_ofNat, show (1 - 1) / 2 + Ntt.bitrev x l * 1 = Ntt.bitrev x l by omega,
    Nat.mod_eq_of_lt h1, Ntt.bitrev_invol l x hl x.2, Nat.mod_eq_of_lt x.2]

/-- Facts about the number of bits of the modulus of a context. -/
theorem ctx_logModulus (h : C.Ok) (hw : C.w ≤ 128) :
    C.q < 2 ^ C.logModulus ∧ 0 < C.logModulus ∧ C.logModulus + 1 < C.w := by
  have h4 := h.fits
  have hp := h.prime.two_le
  have hN : C.q < 2 ^ 128 := by
    have : 2 ^ C.w ≤ 2 ^ 128 := Nat.pow_le_pow_right (by norm_num) hw
    omega
  obtain ⟨b1, b2⟩ := c12_bit_length C.q hN
  have b1 : C.q < 2 ^ C.logModulus := b1
  have b2 : ∀ L, C.q < 2 ^ L → C.logModulus ≤ L := b2
  have hw2 : 2 < C.w := by
    by_contra hc
    have : 2 ^ C.w ≤ 2 ^ 2 := Nat.pow_le_pow_right (by norm_num) (by omega)
    omega
  refine ⟨b1, ?_, ?_⟩
  · by_contra hc
    have : C.logModulus = 0 := by omega
    rw [this] at b1
    omega
  · have := b2 (C.w - 2) (by
      obtain ⟨e, he⟩ : ∃ e, C.w = e + 2 := ⟨C.w - 2, by omega⟩
      rw [he, pow_add] at h4
      rw [he, Nat.add_sub_cancel]
      omega)
    omega

/-- `RelinearizationKey::Create` succeeds for every number of parts (at least three, or two for a
substituted key), every decomposition base up to the modulus, and every valid substitution power. -/
theorem c27_create (h : C.Ok) (hw : C.w ≤ 128) (k : Key C) {T : ℕ}
    (htm : plaintextModulus C.w k.logT = .ok T) (prng : PrngType) (numParts : ℤ) (b : ℕ) (pw : ℤ)
    (pads errs : ℕ → ℕ → C.Poly) :
    (∃ rk, Relin.create k prng numParts b pw pads errs = .ok rk) ↔
      (if pw = 1 then 3 else 2) ≤ numParts ∧ 0 < b ∧ b ≤ C.logModulus ∧ prng ≠ .invalid ∧
        0 ≤ pw ∧ pw % 2 = 1 ∧ pw < 2 * C.n := by
  obtain ⟨l1, l2, l3⟩ := ctx_logModulus h hw
  unfold Relin.create
  by_cases c1 : numParts < if pw = 1 then 3 else 2
  · rw [if_pos c1]; simp; intro; omega
  rw [if_neg c1]
  by_cases c2 : b = 0
  · rw [if_pos c2]; simp; intros; omega
  rw [if_neg c2]
  by_cases c3 : b > C.logModulus
  · rw [if_pos c3]; simp; intros; omega
  rw [if_neg c3]
  obtain ⟨one, m1, m2, m3⟩ := mask_eq (b := b) (w := C.w) (by omega)
  rw [m1, Outcome.bind_ok]
  dsimp only
  unfold Key.substitute
  rw [htm, Outcome.bind_ok]
  by_cases c4 : 0 ≤ pw ∧ pw % 2 = 1 ∧ pw < 2 * C.n
  · have hs : C.substitute k.key pw = .ok (subst C.l pw.toNat k.key) := by
      have := ctx_substitute k.key pw.toNat (by omega) (by omega)
      rwa [Int.toNat_of_nonneg c4.1] at this
    rw [hs, Outcome.bind_ok, Outcome.pure_eq, Outcome.bind_ok]
    by_cases c5 : prng = .invalid
    · rw [if_pos c5]; simp [c5]
    · rw [if_neg c5]
      unfold Gadget.gadgetSize
      rw [if_neg c2, Outcome.bind_ok]
      obtain ⟨L, e1, _⟩ := createParts_ok k (subst C.l pw.toNat k.key) (one : ZMod C.q)
        ((C.logModulus + (b - 1)) / b) pads errs (numParts - firstKeyIndex pw).toNat
        (firstKeyIndex pw) 0 (subst C.l pw.toNat k.key)
        (by unfold firstKeyIndex; split_ifs <;> omega)
        (by unfold firstKeyIndex; split_ifs <;> simp_all [pow_two])
      dsimp only
      rw [e1, Outcome.bind_ok]
      exact ⟨fun _ => ⟨by omega, by omega, by omega, c5, c4⟩, fun _ => ⟨_, rfl⟩⟩
  · have hs : C.substitute k.key pw = .err .invalidArgument := by
      unfold Ctx.substitute
      by_cases h1 : 0 > pw ∨ pw.tmod 2 = 0
      · rw [if_pos h1]
      · rw [if_neg h1, if_pos]
        have h2 : ¬ pw < 0 := fun hc => h1 (Or.inl hc)
        have t1 : pw.tmod 2 = pw % 2 := Int.tmod_eq_emod_of_nonneg (by omega)
        omega
    rw [hs, Outcome.bind_err, Outcome.bind_err]
    constructor
    · rintro ⟨rk, h⟩; simp at h
    · rintro ⟨_, _, _, _, h⟩; exact absurd h c4

/-- `ApplyTo` up to the shift in the error estimate. -/
theorem relinearize_eq (h : C.Ok) (hw : C.w ≤ 128) (k : Key C) {T : ℕ}
    (htm : plaintextModulus C.w k.logT = .ok T) {t : ℤ} (ht : k.tUnderQ = (t : ZMod C.q))
    (prng : PrngType) (numParts : ℤ) (b : ℕ) (pw : ℤ) (pads : ℕ → ℕ → C.Poly)
    (E : ℕ → ℕ → Fin C.n → ℤ) {rk : RKey C}
    (hrk : Relin.create k prng numParts b pw pads (fun i j => modq C.q (E i j)) = .ok rk)
    (x : Ct C) (hx : (x.c.length : ℤ) = numParts) {φ : Fin C.n → ℤ}
    (hφ : Noisy (subst C.l pw.toNat k.key) x φ) :
    ∃ r d, Gadget.gadgetSize C.logModulus b = .ok d ∧
      rk.applyTo x = (do let _ ← decompositionModulus b; .ok r) ∧ r.c.length = 2 ∧ r.power = 1 ∧
      Noisy k.key r fun v => φ v + t * ∑ u ∈ range (x.c.length - (if pw = 1 then 2 else 1)),
        ∑ j ∈ range d, negMul (fun i => (digit b j
          (C.fromNtt (x.c.getD ((if pw = 1 then 2 else 1) + u) 0) i).val : ℤ)) (E u j) v := by
  obtain ⟨l1, l2, l3⟩ := ctx_logModulus h hw
  obtain ⟨c1, c2, c3, c4, c5⟩ := (c27_create h hw k htm prng numParts b pw pads _).mp ⟨rk, hrk⟩
  obtain ⟨one, m1, m2, m3⟩ := mask_eq (b := b) (w := C.w) (by omega)
  have hd0 : 0 < (C.logModulus + (b - 1)) / b := Nat.div_pos (by omega) c2
  have hs : C.substitute k.key pw = .ok (subst C.l pw.toNat k.key) := by
    have := ctx_substitute k.key pw.toNat (by omega) (by omega)
    rwa [Int.toNat_of_nonneg c5.1] at this
  have hfk : firstKeyIndex pw = if pw = 1 then 2 else 1 := rfl
  have hf1 : 1 ≤ firstKeyIndex pw ∧ (firstKeyIndex pw : ℤ) + 1 ≤ numParts := by
    rw [hfk]; split_ifs at c1 ⊢ <;> omega
  obtain ⟨L, e1, e2, e3⟩ := createParts_ok k (subst C.l pw.toNat k.key) (one : ZMod C.q)
    ((C.logModulus + (b - 1)) / b) pads (fun i j => modq C.q (E i j))
    (numParts - firstKeyIndex pw).toNat
    (firstKeyIndex pw) 0 (subst C.l pw.toNat k.key)
    (by unfold firstKeyIndex; split_ifs <;> omega)
    (by unfold firstKeyIndex; split_ifs <;> simp_all [pow_two])
  have hrk' : rk = { numParts := numParts, logDecomp := b, power := pw, parts := L } := by
    unfold Relin.create at hrk
    rw [if_neg (by omega), if_neg (by omega), if_neg (by omega), m1, Outcome.bind_ok] at hrk
    unfold Key.substitute at hrk
    dsimp only at hrk
    rw [htm, Outcome.bind_ok, hs, Outcome.bind_ok, Outcome.pure_eq, Outcome.bind_ok, if_neg c4] at hrk
    unfold Gadget.gadgetSize at hrk
    rw [if_neg (by omega), Outcome.bind_ok] at hrk
    dsimp only at hrk
    rw [e1, Outcome.bind_ok, Outcome.pure_eq] at hrk
    exact (Outcome.ok.inj hrk).symm
  have hsub1 : rk.power = 1 → subst C.l pw.toNat k.key = k.key := by
    intro hp
    rw [hrk'] at hp
    have : pw = 1 := hp
    subst this
    exact subst_id h.l32 k.key
  obtain ⟨r, r1, r2, r3, r4⟩ := applyTo_ok h (b := b) (d := (C.logModulus + (b - 1)) / b)
    (first := firstKeyIndex pw) (P := (numParts - firstKeyIndex pw).toNat) (by omega) hd0
    (by omega) (gadget_fits c2 l1).le (subst C.l pw.toNat k.key) k ht pads E x rk hsub1
    (by rw [hrk']) (by rw [hrk']) (by rw [hrk']; simp only; omega) (by rw [hrk']; exact e2)
    (by omega) (by
      intro u hu
      have := e3 u hu
      rw [m2, zero_add] at this
      rw [hrk']
      exact this)
  refine ⟨r, _, by unfold Gadget.gadgetSize; rw [if_neg (by omega)], r1, r2, r3, ?_⟩
  unfold Noisy at *
  rw [r4, ← hφ, ← toNtt_add, ← modq_add]
  congr 2
  funext v
  rw [Pi.add_apply]
  congr 2
  rw [show x.c.length - (if pw = 1 then 2 else 1) = (numParts - firstKeyIndex pw).toNat by
    rw [hfk]; split_ifs at hf1 ⊢ <;> omega]
  rfl

/-- C27: a created key applied to a ciphertext with as many components as the key has parts gives a
two-component ciphertext under `s` (for bases below `2^31`), whose noisy plaintext is the original one (under `s(X^pw)`) plus
`t` times the sum, over key parts and digits, of digit times key error. -/
theorem c27_relinearize_partial (h : C.Ok) (hw : C.w ≤ 128) (k : Key C) {T : ℕ}
    (htm : plaintextModulus C.w k.logT = .ok T) {t : ℤ} (ht : k.tUnderQ = (t : ZMod C.q))
    (prng : PrngType) (numParts : ℤ) (b : ℕ) (pw : ℤ) (pads : ℕ → ℕ → C.Poly)
    (E : ℕ → ℕ → Fin C.n → ℤ) {rk : RKey C}
    (hrk : Relin.create k prng numParts b pw pads (fun i j => modq C.q (E i j)) = .ok rk)
    (hb31 : b < 31) (x : Ct C) (hx : (x.c.length : ℤ) = numParts) {φ : Fin C.n → ℤ}
    (hφ : Noisy (subst C.l pw.toNat k.key) x φ) :
    ∃ r d, Gadget.gadgetSize C.logModulus b = .ok d ∧
      rk.applyTo x = .ok r ∧ r.c.length = 2 ∧ r.power = 1 ∧
      Noisy k.key r fun v => φ v + t * ∑ u ∈ range (x.c.length - (if pw = 1 then 2 else 1)),
        ∑ j ∈ range d, negMul (fun i => (digit b j
          (C.fromNtt (x.c.getD ((if pw = 1 then 2 else 1) + u) 0) i).val : ℤ)) (E u j) v := by
  obtain ⟨r, d, e1, e2, e3⟩ := relinearize_eq h hw k htm ht prng numParts b pw pads E hrk x hx hφ
  refine ⟨r, d, e1, ?_, e3⟩
  rw [e2]
  unfold decompositionModulus
  rw [if_pos hb31, Outcome.bind_ok]

/-- C27, C28 are false for bases of `2^31` and more: `Create` accepts them, but the error estimate of `ApplyTo`
shifts an `int` out of range. -/
theorem c27_wide_base (h : C.Ok) (hw : C.w ≤ 128) (k : Key C) {T : ℕ}
    (htm : plaintextModulus C.w k.logT = .ok T)
    (prng : PrngType) (numParts : ℤ) (b : ℕ) (pw : ℤ) (pads errs : ℕ → ℕ → C.Poly) {rk : RKey C}
    (hrk : Relin.create k prng numParts b pw pads errs = .ok rk)
    (hb31 : 31 ≤ b) (x : Ct C) (hx : (x.c.length : ℤ) = numParts) : rk.applyTo x = .ub .badShift := by
  haveI := h.neZero
  obtain ⟨E, rfl⟩ : ∃ E : ℕ → ℕ → Fin C.n → ℤ, errs = fun i j => modq C.q (E i j) := by
    have : ∀ i j, ∃ f : Fin C.n → ℤ, modq C.q f = errs i j := fun i j => exists_modq _
    choose E hE using this
    exact ⟨E, by funext i j; rw [hE]⟩
  obtain ⟨t, ht⟩ : ∃ t : ℤ, k.tUnderQ = (t : ZMod C.q) :=
    ⟨(k.tUnderQ.val : ℤ), by rw [Int.cast_natCast, ZMod.natCast_val, ZMod.cast_id', id]⟩
  obtain ⟨φ, hφ⟩ := noisy_exists h (subst C.l pw.toNat k.key) x
  obtain ⟨r, d, e1, e2, e3⟩ := relinearize_eq h hw k htm ht prng numParts b pw pads E hrk x hx hφ
  rw [e2]
  unfold decompositionModulus
  rw [if_neg (by omega), Outcome.bind_ub]

/-- The recorded parameters of a created key. -/
theorem create_fields {k : Key C} {prng : PrngType} {numParts : ℤ} {b : ℕ} {pw : ℤ}
    {pads errs : ℕ → ℕ → C.Poly} {rk : RKey C}
    (h : Relin.create k prng numParts b pw pads errs = .ok rk) :
    rk.power = pw ∧ rk.numParts = numParts ∧ rk.logDecomp = b := by
  unfold Relin.create at h
  obtain ⟨_, h⟩ | ⟨_, h⟩ := ite_eq_iff.mp h
  · cases h
  obtain ⟨_, h⟩ | ⟨_, h⟩ := ite_eq_iff.mp h
  · cases h
  obtain ⟨_, h⟩ | ⟨_, h⟩ := ite_eq_iff.mp h
  · cases h
  simp only [Outcome.bind_eq_ok] at h
  obtain ⟨_, _, _, _, h⟩ := h
  obtain ⟨_, h⟩ | ⟨_, h⟩ := ite_eq_iff.mp h
  · cases h
  simp only [Outcome.bind_eq_ok, Outcome.pure_eq] at h
  obtain ⟨_, _, _, _, h⟩ := h
  cases h
  exact ⟨rfl, rfl, rfl⟩

/-- The size of the key-switching noise. -/
theorem noise_bound {n : ℕ} (b P d : ℕ) (D : ℕ → ℕ → Fin n → ℕ) (E : ℕ → ℕ → Fin n → ℤ) {B : ℤ}
    (hB : 0 ≤ B) (hE : ∀ u j i, |E u j i| ≤ B) (hD : ∀ u j i, D u j i < 2 ^ b) (v : Fin n) :
    |∑ u ∈ range P, ∑ j ∈ range d, negMul (fun i => (D u j i : ℤ)) (E u j) v| ≤
      P * d * (n * (2 ^ b - 1) * B) := by
  have h1 : ∀ u j, |negMul (fun i => (D u j i : ℤ)) (E u j) v| ≤ n * (2 ^ b - 1) * B := by
    intro u j
    refine le_trans (negMul_bound _ _ B hB (hE u j) v) ?_
    apply mul_le_mul_of_nonneg_right _ hB
    unfold norm1
    calc ∑ i, |(D u j i : ℤ)| ≤ ∑ _i : Fin n, ((2 : ℤ) ^ b - 1) := by
          apply sum_le_sum
          intro i _
          have := hD u j i
          rw [abs_of_nonneg (by positivity)]
          have h2 : (D u j i : ℤ) < 2 ^ b := by exact_mod_cast this
          omega
      _ = n * (2 ^ b - 1) := by rw [sum_const, card_univ, Fintype.card_fin, nsmul_eq_mul]
  calc _ ≤ ∑ u ∈ range P, |∑ j ∈ range d, negMul (fun i => (D u j i : ℤ)) (E u j) v| :=
        abs_sum_le_sum_abs _ _
    _ ≤ ∑ u ∈ range P, ∑ j ∈ range d, |negMul (fun i => (D u j i : ℤ)) (E u j) v| :=
        sum_le_sum fun u _ => abs_sum_le_sum_abs _ _
    _ ≤ ∑ _u ∈ range P, ∑ _j ∈ range d, (n * (2 ^ b - 1) * B : ℤ) :=
        sum_le_sum fun u _ => sum_le_sum fun j _ => h1 u j
    _ = _ := by simp [mul_assoc]

/-- C27: with key errors of absolute value at most `B`, the new noisy plaintext is congruent to the old
one modulo `t` and differs from it by at most `t * parts * digits * n * (2^b - 1) * B`. -/
theorem c27_noise_partial (h : C.Ok) (hw : C.w ≤ 128) (k : Key C) {T : ℕ}
    (htm : plaintextModulus C.w k.logT = .ok T) {t : ℤ} (ht : k.tUnderQ = (t : ZMod C.q))
    (prng : PrngType) (numParts : ℤ) (b : ℕ) (pw : ℤ) (pads : ℕ → ℕ → C.Poly)
    (E : ℕ → ℕ → Fin C.n → ℤ) {B : ℤ} (hB : 0 ≤ B) (hE : ∀ u j i, |E u j i| ≤ B) {rk : RKey C}
    (hrk : Relin.create k prng numParts b pw pads (fun i j => modq C.q (E i j)) = .ok rk)
    (hb31 : b < 31) (x : Ct C) (hx : (x.c.length : ℤ) = numParts) {φ : Fin C.n → ℤ}
    (hφ : Noisy (subst C.l pw.toNat k.key) x φ) :
    ∃ r d φ', Gadget.gadgetSize C.logModulus b = .ok d ∧
      rk.applyTo x = .ok r ∧ r.c.length = 2 ∧ r.power = 1 ∧ Noisy k.key r φ' ∧
      (∀ i, φ' i ≡ φ i [ZMOD t]) ∧
      ∀ i, |φ' i - φ i| ≤ |t| * ((x.c.length - (if pw = 1 then 2 else 1) : ℕ) * d *
        ((C.n : ℕ) * (2 ^ b - 1) * B)) := by
  obtain ⟨r, d, e1, e2, e3, e4, e5⟩ := c27_relinearize_partial h hw k htm ht prng numParts b pw pads E hrk hb31 x hx hφ
  refine ⟨r, d, _, e1, e2, e3, e4, e5, fun i => ?_, fun i => ?_⟩
  · exact (Int.modEq_iff_dvd.mpr (by rw [add_sub_cancel_left]; exact dvd_mul_right _ _) :
      φ i ≡ φ i + t * _ [ZMOD t]).symm
  · rw [add_sub_cancel_left, abs_mul]
    apply mul_le_mul_of_nonneg_left _ (abs_nonneg t)
    exact noise_bound b _ d _ E hB hE (fun u j i => digit_lt _ _ _) i

/-- C27: the message survives relinearization whenever the noise fits. -/
theorem c27_decrypt_partial (h : C.Ok) (hw : C.w ≤ 128) (k : Key C) {T : ℕ}
    (htm : plaintextModulus C.w k.logT = .ok T) (ht : k.tUnderQ = (k.tMod.val : ZMod C.q))
    (ht0 : 0 < k.tMod.val) (htq : k.tMod.val ≤ C.q)
    (prng : PrngType) (numParts : ℤ) (b : ℕ) (pads : ℕ → ℕ → C.Poly)
    (E : ℕ → ℕ → Fin C.n → ℤ) {B : ℤ} (hB : 0 ≤ B) (hE : ∀ u j i, |E u j i| ≤ B) {rk : RKey C}
    (hrk : Relin.create k prng numParts b 1 pads (fun i j => modq C.q (E i j)) = .ok rk)
    (hb31 : b < 31) (x : Ct C) (hx : (x.c.length : ℤ) = numParts) {φ : Fin C.n → ℤ} (hφ : Noisy k.key x φ)
    {d : ℕ} (hd : Gadget.gadgetSize C.logModulus b = .ok d)
    (hfit : ∀ i, 2 * (|φ i| + k.tMod.val * ((x.c.length - 2 : ℕ) * d *
        ((C.n : ℕ) * (2 ^ b - 1) * B))) < C.q) :
    ∃ r, rk.applyTo x = .ok r ∧ r.c.length = 2 ∧
      decrypt k r = .ok (fun i => (φ i % (k.tMod.val : ℤ)).toNat) ∧ decrypt k x = decrypt k r := by
  have hφ' : Noisy (subst C.l (1 : ℤ).toNat k.key) x φ := by
    rw [show (1 : ℤ).toNat = 1 from rfl, subst_id h.l32]; exact hφ
  obtain ⟨r, d', φ', e1, e2, e3, e4, e5, e6, e7⟩ := c27_noise_partial h hw k htm (t := (k.tMod.val : ℤ))
    (by exact_mod_cast ht) prng numParts b 1 pads E hB hE hrk hb31 x hx hφ'
  obtain rfl : d = d' := by rw [hd] at e1; exact Outcome.ok.inj e1
  have hpos : (0 : ℤ) ≤ k.tMod.val * ((x.c.length - 2 : ℕ) * d * ((C.n : ℕ) * (2 ^ b - 1) * B)) := by
    have : (1 : ℤ) ≤ 2 ^ b := one_le_pow₀ (by norm_num)
    have : (0 : ℤ) ≤ 2 ^ b - 1 := by omega
    positivity
  have d1 := c19_decrypt_small h k r ht0 htq e5 fun i => by
    have h1 := hfit i
    have h2 := e7 i
    rw [if_pos rfl, abs_of_nonneg (by positivity : (0 : ℤ) ≤ (k.tMod.val : ℤ))] at h2
    have h3 : |φ' i| ≤ |φ i| + |φ' i - φ i| := by
      have := abs_add_le (φ i) (φ' i - φ i)
      rwa [add_sub_cancel] at this
    linarith
  have d2 := c19_decrypt_small h k x ht0 htq hφ fun i => by
    have h1 := hfit i
    linarith
  have e : (fun i => (φ' i % (k.tMod.val : ℤ)).toNat) = fun i => (φ i % (k.tMod.val : ℤ)).toNat := by
    funext i; rw [(e6 i).eq]
  rw [e] at d1
  exact ⟨r, e2, e3, d1, d2.trans d1.symm⟩

/-- C27: ciphertexts with more components than the key has parts are rejected. -/
theorem c27_too_long (rk : RKey C) (x : Ct C) (hx : rk.numParts < x.c.length) :
    rk.applyTo x = .err .invalidArgument := by
  unfold RKey.applyTo; rw [if_pos hx]

/-- C27 is false for ciphertexts with fewer components than the key has parts: although the
documentation accepts any number of components up to the number of parts, they are all rejected. -/
theorem c27_shorter_rejected (h : C.Ok) (hw : C.w ≤ 128) (k : Key C) {T : ℕ}
    (htm : plaintextModulus C.w k.logT = .ok T)
    (prng : PrngType) (numParts : ℤ) (b : ℕ) (pw : ℤ) (pads errs : ℕ → ℕ → C.Poly) {rk : RKey C}
    (hrk : Relin.create k prng numParts b pw pads errs = .ok rk)
    (x : Ct C) (hx : (x.c.length : ℤ) < numParts) : rk.applyTo x = .err .invalidArgument := by
  obtain ⟨E, hE⟩ : ∃ E : ℕ → ℕ → Fin C.n → ℤ, errs = fun i j => modq C.q (E i j) := by
    have : ∀ i j, ∃ f : Fin C.n → ℤ, modq C.q f = errs i j := fun i j =>
      haveI := h.neZero; exists_modq _
    choose E hE using this
    exact ⟨E, by funext i j; rw [hE]⟩
  subst hE
  obtain ⟨t, ht⟩ : ∃ t : ℤ, k.tUnderQ = (t : ZMod C.q) := by
    haveI := h.neZero
    exact ⟨(k.tUnderQ.val : ℤ), by rw [Int.cast_natCast, ZMod.natCast_val, ZMod.cast_id', id]⟩
  obtain ⟨l1, l2, l3⟩ := ctx_logModulus h hw
  obtain ⟨c1, c2, c3, c4, c5⟩ := (c27_create h hw k htm prng numParts b pw pads _).mp ⟨rk, hrk⟩
  obtain ⟨f1, f2, f3⟩ := create_fields hrk
  -- the key parts, from the padded ciphertext
  obtain ⟨one, m1, m2, m3⟩ := mask_eq (b := b) (w := C.w) (by omega)
  have hs : C.substitute k.key pw = .ok (subst C.l pw.toNat k.key) := by
    have := ctx_substitute k.key pw.toNat (by omega) (by omega)
    rwa [Int.toNat_of_nonneg c5.1] at this
  have hfk : firstKeyIndex pw = if pw = 1 then 2 else 1 := rfl
  have hf1 : 1 ≤ firstKeyIndex pw ∧ (firstKeyIndex pw : ℤ) + 1 ≤ numParts := by
    rw [hfk]; split_ifs at c1 ⊢ <;> omega
  obtain ⟨L, e1, e2, e3⟩ := createParts_ok k (subst C.l pw.toNat k.key) (one : ZMod C.q)
    ((C.logModulus + (b - 1)) / b) pads (fun i j => modq C.q (E i j))
    (numParts - firstKeyIndex pw).toNat
    (firstKeyIndex pw) 0 (subst C.l pw.toNat k.key)
    (by unfold firstKeyIndex; split_ifs <;> omega)
    (by unfold firstKeyIndex; split_ifs <;> simp_all [pow_two])
  have hd0 : 0 < (C.logModulus + (b - 1)) / b := Nat.div_pos (by omega) c2
  have hrk' : rk = { numParts := numParts, logDecomp := b, power := pw, parts := L } := by
    unfold Relin.create at hrk
    rw [if_neg (by omega), if_neg (by omega), if_neg (by omega), m1, Outcome.bind_ok] at hrk
    unfold Key.substitute at hrk
    dsimp only at hrk
    rw [htm, Outcome.bind_ok, hs, Outcome.bind_ok, Outcome.pure_eq, Outcome.bind_ok, if_neg c4] at hrk
    unfold Gadget.gadgetSize at hrk
    rw [if_neg (by omega), Outcome.bind_ok] at hrk
    dsimp only at hrk
    rw [e1, Outcome.bind_ok, Outcome.pure_eq] at hrk
    exact (Outcome.ok.inj hrk).symm
  -- applying the parts runs out of components
  have hrest : ∀ (M : List (Part C)) (i : ℕ) (r : C.Poly × C.Poly), x.c.length < firstKeyIndex pw + i + M.length →
      (∀ u < M.length, Part.create ((subst C.l pw.toNat k.key) ^ (firstKeyIndex pw + i + u)) k
        ((2 ^ b : ℕ) : ZMod C.q) ((C.logModulus + (b - 1)) / b) (pads (i + u))
        (fun j => modq C.q (E (i + u) j)) = .ok (M.getD u ⟨[], []⟩)) →
      firstKeyIndex pw + i ≤ x.c.length →
      applyRest x (firstKeyIndex pw) b M i r = .err .invalidArgument := by
    intro M
    induction M with
    | nil => intro i r h1 _ h2; simp at h1; omega
    | cons p M ih =>
      intro i r h1 h2 h3
      rw [List.length_cons] at h1 h2
      rw [applyRest]
      by_cases hc : i + firstKeyIndex pw < x.c.length
      · rw [component_ok x hc, Outcome.bind_ok]
        obtain ⟨rp, g1, _⟩ := part_apply h (b := b) (by omega) hd0 (gadget_fits c2 l1).le
          ((subst C.l pw.toNat k.key) ^ (firstKeyIndex pw + i)) k ht (pads i) (E i)
          (m := p) (by simpa using h2 0 (by omega)) (x.c.getD (i + firstKeyIndex pw) 0)
        rw [g1, Outcome.bind_ok]
        apply ih
        · omega
        · intro u hu
          have := h2 (u + 1) (by omega)
          rw [List.getD_cons_succ] at this
          rw [show firstKeyIndex pw + (i + 1) + u = firstKeyIndex pw + i + (u + 1) by omega,
            show i + 1 + u = i + (u + 1) by omega]
          exact this
        · omega
      · rw [component_err x (by omega), Outcome.bind_err]
  rw [hrk']
  unfold RKey.applyTo
  dsimp only
  rw [if_neg (by omega)]
  by_cases hc : firstKeyIndex pw < x.c.length
  · rw [component_ok x hc, Outcome.bind_ok]
    obtain ⟨p0, M, rfl⟩ : ∃ p0 M, L = p0 :: M := by
      cases hL : L with
      | nil => rw [hL] at e2; simp at e2; omega
      | cons a M => exact ⟨a, M, rfl⟩
    rw [List.length_cons] at e2
    rw [rd_getD ⟨[], []⟩ (by simp), Outcome.bind_ok, List.getD_cons_zero]
    obtain ⟨rp, g1, _⟩ := part_apply h (b := b) (by omega) hd0 (gadget_fits c2 l1).le
      ((subst C.l pw.toNat k.key) ^ (firstKeyIndex pw)) k ht (pads 0) (E 0)
      (m := p0) (by have := e3 0 (by omega); rw [m2] at this; simpa using this)
      (x.c.getD (firstKeyIndex pw) 0)
    rw [g1, Outcome.bind_ok, List.drop_one, List.tail_cons, hrest M 1 rp (by omega) _ (by omega),
      Outcome.bind_err]
    intro u hu
    have := e3 (u + 1) (by omega)
    rw [List.getD_cons_succ, m2, zero_add] at this
    rw [show firstKeyIndex pw + 1 + u = firstKeyIndex pw + (u + 1) by omega,
      show 1 + u = u + 1 by omega]
    exact this
  · rw [component_err x (by omega), Outcome.bind_err]

/-- Multiply two encryptions (`2 + X` and `1 + X`), relinearize the three components with base 4, and
decrypt `1 + 3X`, with `q = 12289` and `t = 5`. -/
example :
    (do let k ← Key.sample (C := exCtx2) ![1, 12288] 8 2
        let x := encrypt k (exCtx2.toNtt ![2, 1]) ![5000, 61] ![0, 1]
        let y := encrypt k (exCtx2.toNtt ![1, 1]) ![10, 11] ![1, 0]
        let z ← Sym.mul x y
        let rk ← Relin.create k .hkdf 3 2 1 (fun _ j => ![(100 * j : ℕ), 77]) (fun _ _ => ![1, 12288])
        let z' ← rk.applyTo z
        let r ← decrypt k z'
        return (z.c.length, z'.c.length, List.ofFn r)) = .ok (3, 2, [1, 3]) := by decide +kernel

/-! ## C28 -/

/-- C28: a Galois key for the power `pw` exists exactly for odd `pw` in `[3, 2n)`. -/
theorem c28_create (h : C.Ok) (hw : C.w ≤ 128) (k : Key C) {T : ℕ}
    (htm : plaintextModulus C.w k.logT = .ok T) (prng : PrngType) (b : ℕ) (pw : ℤ)
    (pads errs : ℕ → ℕ → C.Poly) :
    (∃ rk, Galois.create k prng pw b pads errs = .ok rk) ↔
      3 ≤ pw ∧ pw % 2 = 1 ∧ pw < 2 * C.n ∧ 0 < b ∧ b ≤ C.logModulus ∧ prng ≠ .invalid := by
  unfold Galois.create
  rw [c27_create h hw k htm]
  constructor
  · rintro ⟨h1, h2, h3, h4, h5, h6, h7⟩
    refine ⟨?_, h6, h7, h2, h3, h4⟩
    by_cases hp : pw = 1
    · rw [if_pos hp] at h1; omega
    · omega
  · rintro ⟨h1, h2, h3, h4, h5, h6⟩
    exact ⟨by rw [if_neg (by omega)], h4, h5, h6, by omega, h2, h3⟩

/-- C28: the key moves a ciphertext under `s(X^pw)` to one under `s` with the same noisy plaintext up
to `t` times small noise. -/
theorem c28_galois_partial (h : C.Ok) (hw : C.w ≤ 128) (k : Key C) {T : ℕ}
    (htm : plaintextModulus C.w k.logT = .ok T) {t : ℤ} (ht : k.tUnderQ = (t : ZMod C.q))
    (prng : PrngType) (b : ℕ) (pw : ℤ) (pads : ℕ → ℕ → C.Poly)
    (E : ℕ → ℕ → Fin C.n → ℤ) {B : ℤ} (hB : 0 ≤ B) (hE : ∀ u j i, |E u j i| ≤ B) {rk : RKey C}
    (hrk : Galois.create k prng pw b pads (fun i j => modq C.q (E i j)) = .ok rk)
    (hb31 : b < 31) (x : Ct C) (hx : x.c.length = 2) (hxp : x.power = pw) {φ : Fin C.n → ℤ}
    (hφ : Noisy (subst C.l pw.toNat k.key) x φ) :
    ∃ r d φ', Gadget.gadgetSize C.logModulus b = .ok d ∧
      Galois.applyTo rk x = .ok r ∧ r.c.length = 2 ∧ r.power = 1 ∧ Noisy k.key r φ' ∧
      (∀ i, φ' i ≡ φ i [ZMOD t]) ∧
      ∀ i, |φ' i - φ i| ≤ |t| * (d * ((C.n : ℕ) * (2 ^ b - 1) * B)) := by
  have hc := (c28_create h hw k htm prng b pw pads _).mp ⟨rk, hrk⟩
  unfold Galois.create at hrk
  obtain ⟨r, d, φ', e1, e2, e3, e4, e5, e6, e7⟩ :=
    c27_noise_partial h hw k htm ht prng 2 b pw pads E hB hE hrk hb31 x (by omega) hφ
  refine ⟨r, d, φ', e1, ?_, e3, e4, e5, e6, fun i => ?_⟩
  · unfold Galois.applyTo
    rw [if_neg (by rw [(create_fields hrk).1]; simpa using hxp), e2]
  · have := e7 i
    rw [if_neg (by omega), hx] at this
    simpa using this

/-- C28: ciphertexts recorded under another power, or without exactly two components, are rejected. -/
theorem c28_rejects (h : C.Ok) (hw : C.w ≤ 128) (k : Key C) {T : ℕ}
    (htm : plaintextModulus C.w k.logT = .ok T) (prng : PrngType) (b : ℕ) (pw : ℤ)
    (pads errs : ℕ → ℕ → C.Poly) {rk : RKey C}
    (hrk : Galois.create k prng pw b pads errs = .ok rk) (x : Ct C)
    (hx : x.power ≠ pw ∨ x.c.length ≠ 2) : Galois.applyTo rk x = .err .invalidArgument := by
  unfold Galois.create at hrk
  obtain ⟨f1, f2, f3⟩ := create_fields hrk
  unfold Galois.applyTo
  by_cases hp : x.power = pw
  · rw [if_neg (by rw [f1]; simpa using hp)]
    rcases hx with hx | hx
    · exact absurd hp hx
    · rcases Nat.lt_or_gt_of_ne hx with hx | hx
      · exact c27_shorter_rejected h hw k htm prng 2 b pw pads errs hrk x (by omega)
      · exact c27_too_long rk x (by rw [f2]; omega)
  · rw [if_pos (by rw [f1]; exact hp)]

/-- C28: substituting `X -> X^pw` in a two-component ciphertext under `s` and applying the Galois key
gives a ciphertext under the same `s` of the substituted plaintext. -/
theorem c28_automorphism_partial (h : C.Ok) (hw : C.w ≤ 128) (k : Key C) {T : ℕ}
    (htm : plaintextModulus C.w k.logT = .ok T) {t : ℤ} (ht : k.tUnderQ = (t : ZMod C.q))
    (prng : PrngType) (b pw : ℕ) (pads : ℕ → ℕ → C.Poly)
    (E : ℕ → ℕ → Fin C.n → ℤ) {B : ℤ} (hB : 0 ≤ B) (hE : ∀ u j i, |E u j i| ≤ B) {rk : RKey C}
    (hrk : Galois.create k prng pw b pads (fun i j => modq C.q (E i j)) = .ok rk)
    (hb31 : b < 31) (x : Ct C) (hx : x.c.length = 2) (hxp : x.power = 1) {φ : Fin C.n → ℤ}
    (hφ : Noisy k.key x φ) :
    ∃ y r d φ', Gadget.gadgetSize C.logModulus b = .ok d ∧ substitute x pw = .ok y ∧
      Galois.applyTo rk y = .ok r ∧ r.c.length = 2 ∧ r.power = 1 ∧ Noisy k.key r φ' ∧
      (∀ i, φ' i ≡ substPow pw φ i [ZMOD t]) ∧
      ∀ i, |φ' i - substPow pw φ i| ≤ |t| * (d * ((C.n : ℕ) * (2 ^ b - 1) * B)) := by
  have hc := (c28_create h hw k htm prng b pw pads _).mp ⟨rk, hrk⟩
  have hn : C.n ≤ 2 ^ 15 := Nat.pow_le_pow_right (by norm_num) h.l15
  obtain ⟨y, k', y1, y2, y3, y4, y5, y6⟩ := c25_substitute_partial h k htm x
    (List.length_pos_iff.mp (by omega)) hφ pw (by omega) (by omega) (by omega) (by rw [hxp]; omega)
  have hk' : k'.key = subst C.l pw k.key := by
    unfold Key.substitute at y2
    rw [htm, Outcome.bind_ok, ctx_substitute _ pw (by omega) (by omega), Outcome.bind_ok] at y2
    cases y2
    rfl
  obtain ⟨r, d, φ', e⟩ := c28_galois_partial h hw k htm ht prng b pw pads E hB hE hrk hb31 y (by omega)
    (by
      rw [y4, hxp, one_mul]
      exact Int.emod_eq_of_lt (by omega) (by have := hc.2.2.1; push_cast; push_cast at this; exact this))
    (φ := substPow pw φ) (by rw [Int.toNat_natCast, ← hk']; exact y3)
  exact ⟨y, r, d, φ', e.1, y1, e.2⟩

/-- C28 is false for bases of `2^31` and more. -/
theorem c28_wide_base (h : C.Ok) (hw : C.w ≤ 128) (k : Key C) {T : ℕ}
    (htm : plaintextModulus C.w k.logT = .ok T) (prng : PrngType) (b : ℕ) (pw : ℤ)
    (pads errs : ℕ → ℕ → C.Poly) {rk : RKey C} (hrk : Galois.create k prng pw b pads errs = .ok rk)
    (hb31 : 31 ≤ b) (x : Ct C) (hx : x.c.length = 2) (hxp : x.power = pw) :
    Galois.applyTo rk x = .ub .badShift := by
  unfold Galois.create at hrk
  unfold Galois.applyTo
  rw [if_neg (by rw [(create_fields hrk).1]; simpa using hxp)]
  exact c27_wide_base h hw k htm prng 2 b pw pads errs hrk hb31 x (by omega)

/-- The modulus `3 * 2^30 + 1` with `n = 2`: keys of base `2^31` are created, and applying them is undefined. -/
def exCtx32 : Ctx := ⟨64, 3221225473, 1, 1013946479⟩

theorem exCtx32_ok : exCtx32.Ok :=
  ⟨by
      show Nat.Prime 3221225473
      exact prime_of_lucas 5 32 [2, 3] [30, 1] (by simp [Nat.prime_two, Nat.prime_three]) (by decide +kernel),
    by decide, by decide, by decide, by decide, by
    show (1013946479 : ZMod 3221225473) ^ 2 ^ 1 = -1; decide +kernel⟩

example :
    (do let k ← Key.sample (C := exCtx32) ![1, 3221225472] 8 2
        let rk ← Relin.create k .hkdf 3 31 1 (fun _ _ => ![100, 77]) (fun _ _ => ![1, 3221225472])
        let x := encrypt k (exCtx32.toNtt ![2, 1]) ![5000, 61] ![0, 1]
        let z ← Sym.mul x x
        let _ ← rk.applyTo z
        return ()) = .ub .badShift := by decide +kernel

example :
    (do let k ← Key.sample (C := exCtx32) ![1, 3221225472] 8 2
        let rk ← Galois.create k .hkdf 3 31 (fun _ _ => ![100, 77]) (fun _ _ => ![1, 3221225472])
        let y ← substitute (encrypt k (exCtx32.toNtt ![2, 1]) ![5000, 61] ![0, 1]) 3
        let _ ← Galois.applyTo rk y
        return ()) = .ub .badShift := by decide +kernel

/-- Substituting `X -> X^3` (`n = 2`) in an encryption of `2 + X` and switching back gives an
encryption of `2 - X` under the original key. -/
example :
    (do let k ← Key.sample (C := exCtx2) ![1, 12288] 8 2
        let x := encrypt k (exCtx2.toNtt ![2, 1]) ![5000, 61] ![0, 1]
        let y ← substitute x 3
        let rk ← Galois.create k .chacha 3 4 (fun _ j => ![(100 * j : ℕ), 77]) (fun _ _ => ![1, 12288])
        let z ← Galois.applyTo rk y
        let r ← decrypt k z
        return (y.power, z.power, List.ofFn r)) = .ok (3, 1, [2, 4]) := by decide +kernel

end Shell
