import Verif.Lemmas.RnsEncoder
import Verif.Props.RnsContextKinds
/-!
# C48: encoding and decoding of BGV plaintexts

Coefficient encoding.  A message `m` modulo `t` becomes the centred representative, and decoding recovers it
from any polynomial congruent to it modulo `t` that is small enough.
-/

namespace Shell
open Spec Rns

/-- **C48.** `EncodeBgv` returns, in coefficient form, the polynomial whose coefficients are the centred
representatives modulo `t` of the messages, followed by zeros. -/
theorem c48_encode {w l : ℕ} {c : Rns.Ctx} (hc : GoodCtx w l c) {ms : List Modulus} (hne : ms ≠ [])
    (hms : ∀ m ∈ ms, m ∈ c.qs) {msgs : List ℕ} (hn : msgs.length ≤ 2 ^ l) :
    ∃ x, encodeBgv c msgs ms = .ok x ∧ x.ntt = false ∧
      Represents l ms x fun i => balanced c.t (msgs.getD i 0 % c.t) :=
  repr_encodeBgv (fun m hm => hc.qs m (hms m hm)) hne hc.logN hc.pos hc.word hn

/-- **C48.** More messages than coefficients, and an empty list of moduli, are rejected. -/
theorem c48_encode_rejects {w l : ℕ} {c : Rns.Ctx} (hc : GoodCtx w l c) (hl : l ≤ 30) (ms : List Modulus)
    (msgs : List ℕ) (h : 2 ^ l < msgs.length ∨ ms = []) : encodeBgv c msgs ms = .err .invalidArgument := by
  unfold encodeBgv shl1
  rw [hc.logN, Int.toNat_natCast, if_pos (by omega), Outcome.bind_ok]
  by_cases h1 : msgs.length > 2 ^ l
  · rw [if_pos h1]
  · rw [if_neg h1, if_pos]
    rcases h with h | h
    · omega
    · simp [h]

/-- **C48.** `DecodeBgv` at any level returns the coefficients modulo `t`, if they are so small that reducing
them to the first modulus leaves less than half of it. -/
theorem c48_decode {w l : ℕ} {c : Rns.Ctx} (hc : GoodCtx w l c) {m0 : Modulus} {rest : List Modulus} {k : ℕ}
    (hms : c.qs.take k = m0 :: rest) (ht : c.t ≤ m0.N) {x : RPoly} {F : Fin (2 ^ l) → ℤ}
    (hx : Represents l (m0 :: rest) x F)
    (hF : ∀ i, 2 * lsbBound c.t (dropOrder (m0 :: rest)) |(F i : ℚ)| < m0.N) :
    decodeBgv c x (m0 :: rest) = .ok (List.ofFn fun i => (F i % c.t).toNat) := by
  have hmem : ∀ m ∈ m0 :: rest, m ∈ c.qs := fun m hm => by rw [← hms] at hm; exact List.mem_of_mem_take hm
  have hg : ∀ m ∈ m0 :: rest, GoodModulus w l m := fun m hm => hc.qs m (hmem m hm)
  have g0 := hg m0 List.mem_cons_self
  have hl15 := g0.l15
  obtain ⟨y, y1, y2, y3⟩ := repr_ensureCoeff hg hx
  have hlen := y3.len
  obtain ⟨r, G, r1, r2, r3, r4⟩ := repr_decodeLoop (c := c) hg (fun level m hm => by
      have hm' : (c.qs.take k)[level]? = some m := by rw [hms]; exact hm
      rw [List.getElem?_take] at hm'
      obtain ⟨hlt, hm'⟩ | ⟨_, hm'⟩ := ite_eq_iff.mp hm'
      · obtain ⟨row, r1, r2⟩ := hc.inverses.primeQInvs level m hm'
        refine ⟨row, r1, ?_⟩
        rw [← hms, List.take_take, min_eq_left hlt.le]
        exact r2
      · cases hm') hc.pos hc.word
    (fun m hm => hc.coprime m (List.mem_append_left _ (hmem m hm)))
    (y.coeffs.length - 1) (by rw [← hlen]; simp) y F
    (by rw [List.take_of_length_le (by rw [← hlen]; simp)]; exact y3) y2
  unfold decodeBgv
  rw [if_neg (by rw [hx.len]; simp), y1, Outcome.bind_ok, r1, Outcome.bind_ok,
    rd_some (by rfl : (m0 :: rest)[0]? = some m0), Outcome.bind_ok,
    exportFirst_ok g0.create (by omega) (rest := []) r3 r2, Outcome.bind_ok]
  unfold removeErrorOnMsb
  rw [if_neg (by have := hc.pos; omega)]
  congr 1
  rw [List.map_ofFn]
  congr 1
  funext i
  have gg := g0.good
  obtain ⟨e1, e2⟩ := r4 i
  have hGi : 2 * |G i| < m0.N := by
    have h5 := hF i
    rw [List.take_of_length_le (by rw [← hlen]; simp)] at e2
    have h6 : 2 * |(G i : ℚ)| < m0.N := by linarith
    exact_mod_cast h6
  have key := removeError_eq (W := m0.p.w) hc.pos ht (by rw [gg.hw]; exact lt_word gg) hGi
  rw [e1] at key
  exact key

/-- **C48.** A polynomial with another number of residue vectors than moduli is rejected. -/
theorem c48_decode_rejects (c : Rns.Ctx) (x : RPoly) (ms : List Modulus) (h : ms.length ≠ x.coeffs.length) :
    decodeBgv c x ms = .err .invalidArgument := if_pos h

theorem balanced_mod {t : ℕ} (ht : 0 < t) (m : ℕ) : balanced t (m % t) % t = ((m % t : ℕ) : ℤ) ∧
    2 * |balanced t (m % t)| ≤ t := by
  have h := Nat.mod_lt m ht
  generalize m % t = r at h
  unfold balanced
  split
  · exact ⟨Int.emod_eq_of_lt (by omega) (by omega), by rw [abs_of_nonneg (by omega)]; omega⟩
  · refine ⟨?_, by rw [abs_of_neg (by omega)]; omega⟩
    rw [Int.sub_emod_right]
    exact Int.emod_eq_of_lt (by omega) (by omega)

/-- The moduli are removed without loss when they are `1` modulo `t`. -/
theorem lsbBound_one {t : ℕ} : ∀ (qs : List ℕ), (∀ q ∈ qs, q % t = 1 ∧ 2 ≤ q) → ∀ b : ℚ,
    lsbBound t qs b ≤ b / (qs.prod : ℕ) + t * (1 - 1 / (qs.prod : ℕ)) := by
  intro qs
  induction qs with
  | nil => intro _ b; simp [lsbBound]
  | cons q qs ih =>
    intro h b
    have hq := h q List.mem_cons_self
    refine (ih (fun q' h' => h q' (List.mem_cons_of_mem _ h')) _).trans ?_
    have hP : (0 : ℚ) < (qs.prod : ℕ) := by
      have : 0 < qs.prod := List.prod_pos fun q' h' => by
        have := (h q' (List.mem_cons_of_mem _ h')).2
        omega
      exact_mod_cast this
    have hq0 : (2 : ℚ) ≤ q := by exact_mod_cast hq.2
    rw [hq.1, List.prod_cons, Nat.cast_mul]
    generalize ((qs.prod : ℕ) : ℚ) = P at *
    have hq1 : (0 : ℚ) < q := by linarith
    rw [Nat.cast_one, one_mul]
    have h1 : (b / q + t / 2) / P + t * (1 - 1 / P) = b / (q * P) + t * (1 - 1 / (2 * P)) := by
      field_simp
      ring
    rw [h1]
    have h2 : 1 / (q * P) ≤ 1 / (2 * P) := by gcongr
    have ht : (0 : ℚ) ≤ t := Nat.cast_nonneg t
    have := mul_le_mul_of_nonneg_left h2 ht
    linarith

/-- **C48.** When every modulus but the first is `1` modulo `t`, coefficients up to `Q / 2 - t Q / q_0` decode
correctly, `Q` the product of the moduli of the level. -/
theorem c48_decode_bound {w l : ℕ} {c : Rns.Ctx} (hc : GoodCtx w l c) {m0 : Modulus} {rest : List Modulus}
    {k : ℕ} (hms : c.qs.take k = m0 :: rest) (ht : c.t ≤ m0.N) (h1 : ∀ m ∈ rest, m.N % c.t = 1) {x : RPoly}
    {F : Fin (2 ^ l) → ℤ} (hx : Represents l (m0 :: rest) x F)
    (hF : ∀ i, 2 * |F i| + 2 * c.t * modulusProd rest ≤ modulusProd (m0 :: rest)) :
    decodeBgv c x (m0 :: rest) = .ok (List.ofFn fun i => (F i % c.t).toNat) := by
  refine c48_decode hc hms ht hx fun i => ?_
  have hmem : ∀ m ∈ rest, GoodModulus w l m := fun m hm => by
    have : m ∈ c.qs.take k := by rw [hms]; exact List.mem_cons_of_mem _ hm
    exact hc.qs m (List.mem_of_mem_take this)
  have hd : dropOrder (m0 :: rest) = (rest.map (·.N)).reverse := rfl
  have hb := lsbBound_one (t := c.t) (dropOrder (m0 :: rest)) (fun q hq => by
    rw [hd, List.mem_reverse, List.mem_map] at hq
    obtain ⟨m, hm, rfl⟩ := hq
    exact ⟨h1 m hm, (hmem m hm).prime.two_le⟩) |(F i : ℚ)|
  have hp : (dropOrder (m0 :: rest)).prod = modulusProd rest := by
    rw [hd, List.prod_reverse]; rfl
  rw [hp] at hb
  have hP : 0 < modulusProd rest := List.prod_pos fun q hq => by
    obtain ⟨m, hm, rfl⟩ := List.mem_map.mp hq
    exact (hmem m hm).prime.pos
  have hP' : (0 : ℚ) < (modulusProd rest : ℕ) := by exact_mod_cast hP
  have ht0 : (0 : ℚ) < c.t := by exact_mod_cast hc.pos
  have hFi := hF i
  have e : modulusProd (m0 :: rest) = m0.N * modulusProd rest := by simp [modulusProd]
  rw [e] at hFi
  have hF2 : 2 * |(F i : ℚ)| + 2 * c.t * (modulusProd rest : ℕ) ≤ m0.N * (modulusProd rest : ℕ) := by
    exact_mod_cast hFi
  generalize ((modulusProd rest : ℕ) : ℚ) = P at *
  have h3 : 2 * (|(F i : ℚ)| / P + c.t * (1 - 1 / P)) < m0.N := by
    have h4 : 2 * (|(F i : ℚ)| / P + c.t * (1 - 1 / P)) = (2 * |(F i : ℚ)| + 2 * c.t * P - 2 * c.t) / P := by
      field_simp
      ring
    rw [h4, div_lt_iff₀ hP']
    linarith
  linarith

/-- **C48.** Decoding an encoded plaintext returns the messages modulo `t`, padded with zeros. -/
theorem c48_roundtrip {w l : ℕ} {c : Rns.Ctx} (hc : GoodCtx w l c) {m0 : Modulus} {rest : List Modulus} {k : ℕ}
    (hms : c.qs.take k = m0 :: rest) (ht : c.t ≤ m0.N) {msgs : List ℕ} (hn : msgs.length ≤ 2 ^ l)
    (hb : 2 * lsbBound c.t (dropOrder (m0 :: rest)) (c.t / 2) < m0.N) :
    ∃ x, encodeBgv c msgs (m0 :: rest) = .ok x ∧
      decodeBgv c x (m0 :: rest) = .ok (msgs.map (· % c.t) ++ List.replicate (2 ^ l - msgs.length) 0) := by
  obtain ⟨x, x1, x2, x3⟩ := c48_encode hc (ms := m0 :: rest) (by simp) (fun m hm => by
    rw [← hms] at hm; exact List.mem_of_mem_take hm) hn
  refine ⟨x, x1, ?_⟩
  rw [c48_decode hc hms ht x3 fun i => lt_of_le_of_lt
    (mul_le_mul_of_nonneg_left (lsbBound_mono _ ?_) (by norm_num)) hb]
  · congr 1
    apply List.ext_getElem
    · simp; omega
    · intro j h1 h2
      rw [List.getElem_ofFn, (balanced_mod hc.pos _).1, Int.toNat_natCast, List.getElem_append]
      split
      · rename_i h3
        rw [List.length_map] at h3
        rw [List.getElem_map, List.getD_eq_getElem _ _ h3]
      · rename_i h3
        rw [List.length_map] at h3
        have h4 : msgs.getD j 0 = 0 := List.getD_eq_default _ _ (by omega)
        rw [List.getElem_replicate, h4, Nat.zero_mod]
  · have h := (balanced_mod hc.pos (msgs.getD i 0)).2
    have h' : 2 * |(balanced c.t (msgs.getD i 0 % c.t) : ℚ)| ≤ c.t := by exact_mod_cast h
    linarith

/-- Two moduli `97` and `193` and `t = 17`: `F = 30, -40, 0, 100` decodes to `13, 11, 0, 15`, and any list of
at most four messages survives encoding and decoding. -/
example : ∃ (c : Rns.Ctx) (m0 m1 : Modulus), GoodCtx 16 2 c ∧ c.qs.take 2 = [m0, m1] ∧ c.t = 17 ∧
    (∀ x : RPoly, Represents 2 [m0, m1] x ![30, -40, 0, 100] →
      decodeBgv c x [m0, m1] = .ok [13, 11, 0, 15]) ∧
    ∀ msgs : List ℕ, msgs.length ≤ 4 → ∃ x, encodeBgv c msgs [m0, m1] = .ok x ∧
      decodeBgv c x [m0, m1] = .ok (msgs.map (· % 17) ++ List.replicate (4 - msgs.length) 0) := by
  obtain ⟨c, mt, _, hc, hq, ht, _⟩ := exampleGoodCtxFF
  obtain ⟨m0, ms, h1, h2, hq⟩ := List.map_eq_cons_iff.mp hq
  obtain ⟨m1, ms, rfl, h3, hq⟩ := List.map_eq_cons_iff.mp hq
  have := List.map_eq_nil_iff.mp hq
  subst this
  refine ⟨c, m0, m1, hc, by rw [h1]; rfl, ht, fun x hx => ?_, fun msgs hn => ?_⟩
  · rw [c48_decode hc (k := 2) (by rw [h1]; rfl) (by rw [ht, h2]; norm_num) hx]
    · rw [ht]; rfl
    · intro i
      fin_cases i <;> simp [lsbBound, dropOrder, h2, h3, ht] <;> norm_num
  · have := c48_roundtrip hc (m0 := m0) (rest := [m1]) (k := 2) (by rw [h1]; rfl)
      (by rw [ht, h2]; norm_num) (msgs := msgs) hn
      (by simp [lsbBound, dropOrder, h2, h3, ht]; norm_num)
    rw [ht] at this
    exact this

/-- **C48, where the code fails.** Nothing rejects a plaintext modulus above the first modulus, and then the
subtraction in the error correction wraps around: with `q_0 = 97` and `t = 200` the message `199`, encoded as
`-1`, is decoded as `135`. -/
theorem c48_large_t : ∃ (c : Rns.Ctx) (x : RPoly), createCtx 16 2 [97] [] 200 = .ok c ∧
    encodeBgv c [199] c.qs = .ok x ∧ decodeBgv c x c.qs = .ok [135, 0, 0, 0] := by
  have : (match createCtx 16 2 [97] [] 200 with
      | .ok c => (match encodeBgv c [199] c.qs with
        | .ok x => decide (decodeBgv c x c.qs = .ok [135, 0, 0, 0])
        | _ => false)
      | _ => false) = true := by decide +kernel
  cases h : createCtx 16 2 [97] [] 200 with
  | err e => rw [h] at this; cases this
  | ub e => rw [h] at this; cases this
  | ok c =>
    rw [h] at this
    dsimp only at this
    cases h2 : encodeBgv c [199] c.qs with
    | err e => rw [h2] at this; cases this
    | ub e => rw [h2] at this; cases this
    | ok x =>
      rw [h2] at this
      exact ⟨c, x, rfl, h2, of_decide_eq_true this⟩

end Shell
