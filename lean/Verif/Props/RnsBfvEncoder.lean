import Verif.Props.RnsEncoder
/-!
# C49: encoding and decoding of BFV plaintexts

`Q` is the product of the moduli.  A scaled plaintext holds `Q m / t` rounded up, an unscaled one `m`.
-/

namespace Shell
open Spec Rns

/-- **C49.** `EncodeBfv` with scaling, on all main moduli, returns in NTT form the polynomial whose coefficients
are `Q m / t` rounded up, `m` the message modulo `t`. -/
theorem c49_encode_scaled {w l : ℕ} {c : Rns.Ctx} {mt : Modulus} (hc : GoodCtx w l c) (hb : BfvConstants c mt)
    (hcr : MParams.create w mt.N = .ok mt.p) (hN : mt.N = c.t) (h1 : 1 < c.t) (hne : c.qs ≠ [])
    {msgs : List ℕ} (hw : ∀ a ∈ msgs, a < 2 ^ w) (hn : msgs.length ≤ 2 ^ l) :
    ∃ x, encodeBfv c msgs c.qs true = .ok x ∧ x.ntt = true ∧
      Represents l c.qs x fun i => ⌈(modulusProd c.qs * (msgs.getD i 0 % c.t : ℕ) : ℚ) / c.t⌉ := by
  obtain ⟨x, x1, x2, x3⟩ := encodeBfv_scaled_mid hc.qs hne hc.logN hb.modT hcr hw hn
    (Q := modulusProd c.qs) (by rw [hN]; exact hc.residues.qModT h1)
  rw [hN] at x3
  have x4 : Represents l c.qs x fun i : Fin (2 ^ l) =>
      (c.t : ℤ) * ⌈(modulusProd c.qs * (msgs.getD i 0 % c.t : ℕ) : ℚ) / c.t⌉ :=
    x3.congr hc.qs fun m hm i => by
      have hd : (m.N : ℤ) ∣ (modulusProd c.qs : ℕ) := by
        exact_mod_cast List.dvd_prod (List.mem_map.mpr ⟨m, hm, rfl⟩)
      rw [sub_sub_cancel_left, Int.dvd_neg]
      exact Dvd.dvd.mul_right hd _
  obtain ⟨r, r1, r2, r3⟩ := repr_divRns hc.qs x4 hc.inverses.tInvModQs
  exact ⟨r, by rw [x1, r1], by rw [r2, x2], r3⟩

/-- **C49.** Without scaling it returns the messages modulo `t`, on any list of main moduli. -/
theorem c49_encode_unscaled {w l : ℕ} {c : Rns.Ctx} {mt : Modulus} (hc : GoodCtx w l c)
    (hb : BfvConstants c mt) (hcr : MParams.create w mt.N = .ok mt.p) (hN : mt.N = c.t) {ms : List Modulus}
    (hne : ms ≠ []) (hms : ∀ m ∈ ms, m ∈ c.qs) {msgs : List ℕ} (hw : ∀ a ∈ msgs, a < 2 ^ w)
    (hn : msgs.length ≤ 2 ^ l) :
    ∃ x, encodeBfv c msgs ms false = .ok x ∧ x.ntt = true ∧
      Represents l ms x fun i => ((msgs.getD i 0 % c.t : ℕ) : ℤ) := by
  rw [← hN]
  exact repr_encodeBfv_unscaled (fun m hm => hc.qs m (hms m hm)) hne hc.logN hb.modT hcr hw hn

/-- **C49.** Too many messages, no moduli, and a context without parameters for `t` are rejected. -/
theorem c49_encode_rejects {w l : ℕ} {c : Rns.Ctx} (hc : GoodCtx w l c) (hl : l ≤ 30) (ms : List Modulus)
    (msgs : List ℕ) (b : Bool) (h : 2 ^ l < msgs.length ∨ ms = [] ∨ c.modT = none) :
    encodeBfv c msgs ms b = .err .invalidArgument := by
  unfold encodeBfv shl1
  rw [hc.logN, Int.toNat_natCast, if_pos (by omega), Outcome.bind_ok]
  by_cases h1 : msgs.length > 2 ^ l
  · rw [if_pos h1]
  rw [if_neg h1]
  by_cases h2 : ms = []
  · rw [if_pos (by simp [h2])]
  rw [if_neg (by simpa using h2)]
  rcases h with h | h | h
  · omega
  · exact absurd h h2
  · rw [h]

/-- **C49.** Scaled encoding at a lower level is rejected: the context has the inverse of `t` for all main
moduli only. -/
theorem c49_encode_level {w l : ℕ} {c : Rns.Ctx} {mt : Modulus} (hc : GoodCtx w l c) (hb : BfvConstants c mt)
    (hcr : MParams.create w mt.N = .ok mt.p) (hN : mt.N = c.t) (h1 : 1 < c.t) {ms : List Modulus}
    (hne : ms ≠ []) (hms : ∀ m ∈ ms, m ∈ c.qs) (hlen : ms.length ≠ c.qs.length) {msgs : List ℕ}
    (hw : ∀ a ∈ msgs, a < 2 ^ w) (hn : msgs.length ≤ 2 ^ l) :
    encodeBfv c msgs ms true = .err .invalidArgument := by
  obtain ⟨x, x1, x2, x3⟩ := encodeBfv_scaled_mid (fun m hm => hc.qs m (hms m hm)) hne hc.logN hb.modT hcr hw hn
    (Q := modulusProd c.qs) (by rw [hN]; exact hc.residues.qModT h1)
  rw [x1]
  unfold mulRns
  have e := List.Forall₂.length_eq hc.inverses.tInvModQs
  have e' := x3.len
  rw [if_pos (by omega)]

/-- **C49.** `DecodeBfv` at any level returns `M` modulo `t`, if `t F / Q` is within `1/2 - ε` of `M`, `ε` the
error of the floating-point estimate. -/
theorem c49_decode {w l : ℕ} {c : Rns.Ctx} {mt : Modulus} (hc : GoodCtx w l c) (hb : BfvConstants c mt)
    (hcr : MParams.create w mt.N = .ok mt.p) (hN : mt.N = c.t) {ms : List Modulus} {k : ℕ}
    (hms : c.qs.take k = ms) (hne : ms ≠ []) {x : RPoly} {F M : Fin (2 ^ l) → ℤ}
    (hx : Represents l ms x F) {ε : ℚ} {est : Estimate} (he : EstimateWithin ms.length ε est) (hε : ε < 1 / 2)
    (hw : ms.length < 2 ^ w)
    (hM : ∀ i, |(c.t : ℚ) * F i - modulusProd ms * M i| < (1 / 2 - ε) * modulusProd ms) :
    decodeBfv est c x ms = .ok (List.ofFn fun i => (M i % c.t).toNat) :=
  repr_decodeBfv hc hb hcr hN hms hne hx he hε hw hM

theorem c49_decode_rejects (est : Estimate) (c : Rns.Ctx) (x : RPoly) (ms : List Modulus)
    (h : ms.length ≠ x.coeffs.length ∨ c.modT = none) : decodeBfv est c x ms = .err .invalidArgument := by
  unfold decodeBfv
  by_cases h1 : ms.length ≠ x.coeffs.length
  · rw [if_pos h1]
  · rw [if_neg h1]
    rcases h with h | h
    · exact absurd h h1
    · rw [h]

/-- **C49.** A scaled plaintext to which noise `e` was added decodes to the message modulo `t`, if
`t (|e| + 1) ≤ (1/2 - ε) Q`. -/
theorem c49_roundtrip {w l : ℕ} {c : Rns.Ctx} {mt : Modulus} (hc : GoodCtx w l c) (hb : BfvConstants c mt)
    (hcr : MParams.create w mt.N = .ok mt.p) (hN : mt.N = c.t) (hne : c.qs ≠ [])
    {msgs : List ℕ} (hn : msgs.length ≤ 2 ^ l)
    {ε : ℚ} {est : Estimate} (he : EstimateWithin c.qs.length ε est) (hε : ε < 1 / 2) (hw : c.qs.length < 2 ^ w)
    {y : RPoly} {e : Fin (2 ^ l) → ℤ}
    (hy : Represents l c.qs y fun i => ⌈(modulusProd c.qs * (msgs.getD i 0 % c.t : ℕ) : ℚ) / c.t⌉ + e i)
    (hE : ∀ i, (c.t : ℚ) * (|(e i : ℚ)| + 1) ≤ (1 / 2 - ε) * modulusProd c.qs) :
    decodeBfv est c y c.qs = .ok (msgs.map (· % c.t) ++ List.replicate (2 ^ l - msgs.length) 0) := by
  have ht : (0 : ℚ) < c.t := by exact_mod_cast hc.pos
  rw [c49_decode hc hb hcr hN (k := c.qs.length) (List.take_length) hne hy
    (M := fun i => ((msgs.getD i 0 % c.t : ℕ) : ℤ)) he hε hw]
  · congr 1
    apply List.ext_getElem
    · simp; omega
    · intro j h1 h2
      rw [List.getElem_ofFn, List.getElem_append]
      dsimp only
      rw [← Int.natCast_mod, Nat.mod_mod, Int.toNat_natCast]
      split
      · rename_i h3
        rw [List.length_map] at h3
        rw [List.getElem_map, List.getD_eq_getElem _ _ h3]
      · rename_i h3
        rw [List.length_map] at h3
        rw [List.getElem_replicate, List.getD_eq_default _ _ (by omega), Nat.zero_mod]
  · intro i
    obtain ⟨v, v1, _, v3⟩ := ceil_div (modulusProd c.qs) (msgs.getD i 0 % c.t) c.t hc.pos
    refine lt_of_lt_of_le ?_ (hE i)
    have v4 : (c.t : ℚ) * (⌈(modulusProd c.qs * (msgs.getD i 0 % c.t : ℕ) : ℚ) / c.t⌉ : ℤ) =
        modulusProd c.qs * (msgs.getD i 0 % c.t : ℕ) + v := by
      generalize ⌈(modulusProd c.qs * (msgs.getD i 0 % c.t : ℕ) : ℚ) / c.t⌉ = z at v3 ⊢
      generalize msgs.getD i 0 % c.t = a at v3 ⊢
      have := congrArg (Int.cast : ℤ → ℚ) v3
      push_cast at this
      exact this
    rw [Int.cast_add, mul_add, v4, Int.cast_natCast, add_sub_right_comm, add_sub_cancel_left, mul_add, mul_one]
    have v5 : (v : ℚ) < c.t := by exact_mod_cast v1
    have v6 := abs_add_le (v : ℚ) (c.t * e i)
    rw [abs_mul, abs_of_pos ht, Nat.abs_cast] at v6
    linarith

/-- A BFV context: `97`, `193`, and `t = 17`, a prime with transforms of length 4. -/
theorem exampleBfvCtx : ∃ c mt, createForBfv 16 2 [97, 193] [113, 241] 17 = .ok c ∧ GoodCtx 16 2 c ∧
    c.qs.map (·.N) = [97, 193] ∧ c.t = 17 ∧ MParams.create 16 mt.N = .ok mt.p ∧ mt.N = 17 ∧
    BfvConstants c mt := by
  have h1 : (match createCtx 16 2 [97, 193] [113, 241] 17 with | .ok _ => true | _ => false) = true := by
    decide +kernel
  have h2 : (match MParams.create 16 17 with | .ok _ => true | _ => false) = true := by decide +kernel
  cases hc : createCtx 16 2 [97, 193] [113, 241] 17 with
  | err e => rw [hc] at h1; cases h1
  | ub e => rw [hc] at h1; cases h1
  | ok c₀ =>
    cases hp : MParams.create 16 17 with
    | err e => rw [hp] at h2; cases h2
    | ub e => rw [hp] at h2; cases h2
    | ok p =>
      obtain ⟨c, h⟩ := (c54_bfv_total (l := 2) (by norm_num) (by norm_num) hc hp).1 (by norm_num)
      obtain ⟨a, b, _, d, mt, e, f, g⟩ := c54_createForBfv (l := 2) (by norm_num) (by norm_num)
        (by norm_num) h (by decide) (by norm_num)
      exact ⟨c, mt, h, a, b, d, e, f, g⟩

/-- Any list of at most four messages survives scaled encoding, noise of up to `500` (of `Q = 18721`,
`t = 17`) and decoding. -/
example : ∃ c : Rns.Ctx, createForBfv 16 2 [97, 193] [113, 241] 17 = .ok c ∧
    ∀ msgs : List ℕ, (∀ a ∈ msgs, a < 2 ^ 16) → msgs.length ≤ 4 → ∃ x, encodeBfv c msgs c.qs true = .ok x ∧
    ∀ e y E, Represents 2 c.qs e E → (∀ i, |E i| ≤ 500) → e.ntt = true → add c.qs x e = .ok y →
      decodeBfv exactEstimate c y c.qs = .ok (msgs.map (· % 17) ++ List.replicate (4 - msgs.length) 0) := by
  obtain ⟨c, mt, h, hc, hq, ht, hcr, hN, hb⟩ := exampleBfvCtx
  have hne : c.qs ≠ [] := by intro h0; rw [h0] at hq; cases hq
  have hlen : c.qs.length = 2 := by
    have := congrArg List.length hq
    simpa using this
  refine ⟨c, h, fun msgs hw hn => ?_⟩
  obtain ⟨x, x1, x2, x3⟩ := c49_encode_scaled hc hb hcr (by rw [hN, ht]) (by rw [ht]; norm_num) hne hw hn
  refine ⟨x, x1, fun e y E he hE hntt hy => ?_⟩
  obtain ⟨r, r1, r2, r3⟩ := repr_add hc.qs x3 he (by rw [x2, hntt])
  have := Outcome.ok.inj (hy.symm.trans r1)
  subst this
  have key := c49_roundtrip hc hb hcr (by rw [hN, ht]) hne hn (exactEstimate_within _) (by norm_num)
    (by rw [hlen]; norm_num) r3
  rw [ht] at key
  refine key fun i => ?_
  have hQ : modulusProd c.qs = 18721 := by unfold modulusProd; rw [hq]; norm_num
  have h5 : |(E i : ℚ)| ≤ 500 := by exact_mod_cast hE i
  rw [hQ]
  norm_num
  linarith

end Shell
