import Verif.Props.RnsCircuit
import Verif.Props.ErrorSample
/-!
# Properties C53 and C55: concrete cases

The moduli are `97` and `193`, `t = 17`, four coefficients, error variance 1, and the generator delivers a given
list of bytes.
-/

namespace Shell
open Spec Rns

/-- A modulus is determined by its prime. -/
theorem goodModulus_unique {w l : ℕ} {m m' : Modulus} (h : GoodModulus w l m) (h' : GoodModulus w l m')
    (hN : m.N = m'.N) : m = m' := by
  obtain ⟨p, q⟩ := m
  obtain ⟨p', q'⟩ := m'
  have h1 := h.create
  have h2 := h'.create
  rw [show (⟨p, q⟩ : Modulus).N = (⟨p', q'⟩ : Modulus).N from hN, h2] at h1
  have hp : p' = p := Outcome.ok.inj h1
  have h3 := h.init
  have h4 := h'.init
  subst hp
  rw [h4] at h3
  rw [show q' = q from Outcome.ok.inj h3]

def exMs : List Modulus := [exampleModulus 16 2 97, exampleModulus 16 2 193]

theorem exMs_good : ∀ m ∈ exMs, GoodModulus 16 2 m := by simp [exMs, exampleModulus_good]

theorem exMs_of {ms : List Modulus} (hg : ∀ m ∈ ms, GoodModulus 16 2 m) (h : ms.map (·.N) = [97, 193]) :
    ms = exMs := by
  obtain ⟨m0, ms', rfl, h2, h⟩ := List.map_eq_cons_iff.mp h
  obtain ⟨m1, ms', rfl, h3, h⟩ := List.map_eq_cons_iff.mp h
  obtain rfl := List.map_eq_nil_iff.mp h
  have e1 := goodModulus_unique (hg m0 (by simp)) exampleModulus_good.1 (by rw [h2]; decide +kernel)
  have e2 := goodModulus_unique (hg m1 (by simp)) exampleModulus_good.2 (by rw [h3]; decide +kernel)
  rw [e1, e2]; rfl

/-- A secret key sampled with the bytes `1 0 0 1 1 0 1 1`. -/
theorem exKey : ∃ k S, RKey.sample listGen 2 1 exMs [1, 0, 0, 1, 1, 0, 1, 1] = .ok (k, []) ∧
    GoodKey 16 2 k S ∧ k.ms = exMs ∧ k.variance = 1 ∧ ∀ i, |S i| ≤ 2 := by
  have : (match RKey.sample listGen 2 1 exMs [1, 0, 0, 1, 1, 0, 1, 1] with
    | .ok (_, s) => s.isEmpty | _ => false) = true := by decide +kernel
  cases h : RKey.sample listGen 2 1 exMs [1, 0, 0, 1, 1, 0, 1, 1] with
  | err e => rw [h] at this; cases this
  | ub e => rw [h] at this; cases this
  | ok r =>
    obtain ⟨k, s⟩ := r
    rw [h] at this
    have hs : s = [] := List.isEmpty_iff.mp this
    subst hs
    have hv : ∀ m ∈ exMs.head?, 2 * (1 : ℤ) ≤ m.N := by
      intro m hm
      have : m = exampleModulus 16 2 97 := by simpa [exMs] using hm.symm
      subst this
      decide +kernel
    obtain ⟨k1, k2, S, k3, k4⟩ := c55_key_sample listGen listGen_words exMs_good hv h
    refine ⟨k, S, rfl, ⟨by rw [k1]; exact exMs_good, by rw [k1]; decide +kernel, k3, ?_⟩, k1, k2, by simpa using k4⟩
    rw [k1, k2]; exact hv

/-- The samples of an encryption. -/
theorem exSamples : ∃ a s1 e s2, sampleUniform listGen 100 2 exMs [5, 70, 12, 9, 3, 1, 150, 66, 1, 0, 1, 1] =
    .ok (a, s1) ∧ sampleErr listGen 2 1 exMs s1 = .ok (e, s2) := by
  have : (match sampleUniform listGen 100 2 exMs [5, 70, 12, 9, 3, 1, 150, 66, 1, 0, 1, 1] with
    | .ok (_, s1) => (match sampleErr listGen 2 1 exMs s1 with | .ok _ => true | _ => false)
    | _ => false) = true := by decide +kernel
  cases h : sampleUniform listGen 100 2 exMs [5, 70, 12, 9, 3, 1, 150, 66, 1, 0, 1, 1] with
  | err e => rw [h] at this; cases this
  | ub e => rw [h] at this; cases this
  | ok r =>
    obtain ⟨a, s1⟩ := r
    rw [h] at this
    dsimp only at this
    cases h' : sampleErr listGen 2 1 exMs s1 with
    | err e => rw [h'] at this; cases this
    | ub e => rw [h'] at this; cases this
    | ok r' => exact ⟨a, s1, r'.1, r'.2, rfl, h'⟩

/-- All lists of at most four messages survive encryption and decryption with this key. -/
example (est : Estimate) : ∃ e k S s, GoodEncoder 16 2 e ∧ GoodKey 16 2 k S ∧ k.ms = e.ctx.qs ∧
    ∀ msgs : List ℕ, (∀ a ∈ msgs, a < 2 ^ 16) → msgs.length ≤ 4 → ∃ x s',
      k.encryptBgv listGen 100 (finiteFieldEncoder est e) msgs s = .ok (x, s') ∧
      k.decryptBgv (finiteFieldEncoder est e) x = .ok (msgs.map (· % 17) ++ List.replicate (4 - msgs.length) 0) := by
  obtain ⟨e, he, hq, ht⟩ := exampleEncoder
  obtain ⟨k, S, _, hk, km, kv, _⟩ := exKey
  obtain ⟨a, s1, er, s2, ha, her⟩ := exSamples
  have hqs := exMs_of he.ctx.qs hq
  refine ⟨e, k, S, [5, 70, 12, 9, 3, 1, 150, 66, 1, 0, 1, 1], he, hk, by rw [km, hqs], fun msgs hw hn => ?_⟩
  have hlog : k.key.logN = 2 := hk.key.2.1
  have h97 : (exampleModulus 16 2 97).N = 97 := by decide +kernel
  have h193 : (exampleModulus 16 2 193).N = 193 := by decide +kernel
  have := c55_bgv_roundtrip est he (lev := 2) (m0 := exampleModulus 16 2 97) (rest := [exampleModulus 16 2 193])
    (by rw [hqs]; rfl) (by rw [ht, h97]; norm_num) (k := k) km hk listGen listGen_words (fuel := 100) hw hn
    (by rw [km, hlog]; exact ha) (by rw [km, hlog, kv]; exact her)
    (by simp only [lsbBound, dropOrder, ht, kv, List.tail_cons, List.map_cons, List.map_nil, List.reverse_cons,
          List.reverse_nil, List.nil_append, h193, h97]; norm_num)
  obtain ⟨x, x1, x2⟩ := this
  rw [ht] at x2
  exact ⟨x, s2, x1, x2⟩

/-- The sum of an encryption of any messages with itself, less an encoded plaintext, decrypts slot by slot. -/
example (est : Estimate) : ∃ e k S s, GoodEncoder 16 2 e ∧ GoodKey 16 2 k S ∧
    ∀ a b : ℕ, a < 2 ^ 16 → b < 2 ^ 16 → ∃ x s' pt r, k.encryptBgv listGen 100 (finiteFieldEncoder est e) [a] s =
        .ok (x, s') ∧ ffEncodeBgv e [b] k.ms = .ok pt ∧
      (RCircuit.subPlain (.add (.input ()) (.input ())) pt).run (fun _ => x) = .ok r ∧
      ∃ ds, k.decryptBgv (finiteFieldEncoder est e) r = .ok ds ∧
        ((ds.getD 0 0 : ℕ) : ZMod e.mt.N) = a + a - b := by
  obtain ⟨e, he, hq, ht⟩ := exampleEncoder
  obtain ⟨k, S, _, hk, km, kv, _⟩ := exKey
  obtain ⟨pa, s1, er, s2, ha, her⟩ := exSamples
  have hqs := exMs_of he.ctx.qs hq
  refine ⟨e, k, S, [5, 70, 12, 9, 3, 1, 150, 66, 1, 0, 1, 1], he, hk, fun a b hwa hwb => ?_⟩
  have hlog : k.key.logN = 2 := hk.key.2.1
  have h97 : (exampleModulus 16 2 97).N = 97 := by decide +kernel
  have h193 : (exampleModulus 16 2 193).N = 193 := by decide +kernel
  have hms : k.ms ≠ [] := by rw [km]; simp [exMs]
  have hmem : ∀ m ∈ k.ms, m ∈ e.ctx.qs := fun m hm => by rw [hqs, ← km]; exact hm
  obtain ⟨p, F, p1, p2, p3, p4, p5⟩ := c50_encode_bgv he hms hmem (msgs := [a])
    (by simpa using hwa) (by simp)
  obtain ⟨p', F', p1', p2', p3', p4', p5'⟩ := c50_encode_bgv he hms hmem (msgs := [b])
    (by simpa using hwb) (by simp)
  obtain ⟨x, R, x1, ⟨x2, x3, x4⟩, x5, x6⟩ := c55_encrypt_bgv (fuel := 100) listGen listGen_words hk
    (E := finiteFieldEncoder est e) p1 p3 he.ctx.word (by rw [km, hlog]; exact ha)
    (by rw [km, hlog, kv]; exact her)
  have b1 : ∀ j, |F j + (e.ctx.t : ℤ) * R j| ≤ 42 := fun j => by
    have h4 := p4 j
    have h6 := x6 j
    rw [kv] at h6
    rw [ht] at h4 ⊢
    rw [abs_le] at h6 ⊢
    have := abs_le.mp (show |F j| ≤ 8 by push_cast at h4; omega)
    constructor <;> push_cast <;> omega
  have b2 : ∀ j, |F' j| ≤ 8 := fun j => by
    have h4 := p4' j
    rw [ht] at h4
    push_cast at h4
    omega
  obtain ⟨r, r1, r2⟩ := c53_bgv_slots est he (lev := 2) (m0 := exampleModulus 16 2 97)
    (rest := [exampleModulus 16 2 193]) (by rw [hqs]; rfl) (by rw [ht, h97]; norm_num) km hk.key
    (x := fun _ : Unit => x) (F := fun _ => F) (R := fun _ => R) (M := fun _ => F')
    (fun _ => ⟨x2.trans km, x3, List.length_pos_iff.mp (by omega), x5⟩)
    (RCircuit.subPlain (.add (.input ()) (.input ())) p') ⟨⟨trivial, trivial⟩, p2', by rw [km] at p3'; exact p3'⟩
    (d := 2) (by simp [RCircuit.comps, x4]) (b := fun _ => 42) (m := fun _ => 8) (fun _ => b1) (fun _ => b2)
    (by simp only [RCircuit.bound, lsbBound, dropOrder, ht, List.tail_cons, List.map_cons, List.map_nil,
          List.reverse_cons, List.reverse_nil, List.nil_append, h193, h97]; norm_num)
  refine ⟨x, s2, p', r, x1, p1', r1, _, r2, ?_⟩
  haveI : NeZero e.mt.N := ⟨he.mt.prime.ne_zero⟩
  have q1 := p5 0 (by norm_num)
  have q2 := p5' 0 (by norm_num)
  simp only [List.getD_cons_zero] at q1 q2
  simp [RCircuit.eval, q1, q2, List.getD_eq_getElem?_getD]

end Shell
