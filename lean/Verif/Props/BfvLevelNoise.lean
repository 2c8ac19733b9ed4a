import Verif.Props.LevelNoise
import Verif.Props.BfvKeyNoise
/-!
# Property C108 for BFV: modulus reduction within the error estimates

`ModReduce` of a BFV ciphertext leaves `Error()` as it is. This is right, in every coefficient and for any number of
reductions, if `Error()` is at least `1 + |s|_1 + |s|_1^2 + ..`, which it is after every rotation.
-/

namespace Shell
open Spec Rns RnsErrorTrack NttRing Real
variable {ι κ τ : Type} {w l : ℕ} {S : Fin (2 ^ l) → ℤ} {k : RKey}

/-- **C108.** Let `t` times `Error()` (and `s`, the noise of the encodings of plaintexts that were added) bound the distance
of `t` times the polynomial that a BFV ciphertext stands for from `Q` times `M`, and let it be at least `1 + |s|_1 + ..` with
a term for each component. It can be reduced any number of times while moduli are left, and the same holds for the result
and for the product of the moduli that are left. -/
theorem c108_bfv_reduce {ctx : Rns.Ctx} (hc : GoodCtx w l ctx) {lev : ℕ} (hlev : 0 < lev) (n : ℕ)
    (hn : lev + n ≤ ctx.qs.length) {x : RTracked} (hms : x.ct.ms = ctx.qs.take (lev + n)) {Φ M : Fin (2 ^ l) → ℤ} {t : ℕ} {s : ℝ}
    (hx : Encrypts l S x.ct Φ) (hΦ : ∀ i, |((t : ℤ) * Φ i - modulusProd (ctx.qs.take (lev + n)) * M i : ℤ)| ≤ t * (x.error + s))
    (hfloor : ∑ j ∈ Finset.range x.ct.c.length, (norm1 S : ℝ) ^ j ≤ x.error + s) :
    ∃ y Φ', reduceTimesBfv ctx n x = .ok y ∧ y.ct.ms = ctx.qs.take lev ∧ y.ct.power = x.ct.power ∧
      y.ct.c.length = x.ct.c.length ∧ y.error = x.error ∧ Encrypts l S y.ct Φ' ∧
      ∀ i, |((t : ℤ) * Φ' i - modulusProd (ctx.qs.take lev) * M i : ℤ)| ≤ t * (y.error + s) := by
  induction n generalizing x Φ with
  | zero => exact ⟨x, Φ, rfl, hms, rfl, rfl, rfl, hx, hΦ⟩
  | succ n ih =>
    obtain ⟨m, hm⟩ : ∃ m, ctx.qs[lev + n]? = some m := ⟨ctx.qs[lev + n], List.getElem?_eq_getElem (by omega)⟩
    have hsplit : ctx.qs.take (lev + (n + 1)) = ctx.qs.take (lev + n) ++ [m] := by
      rw [← add_assoc, List.take_succ, hm]; rfl
    have hne : ctx.qs.take (lev + n) ≠ [] := by
      intro h0
      have := congrArg List.length h0
      rw [List.length_take, List.length_nil] at this
      omega
    have gm := hc.qs m (List.mem_of_getElem? hm)
    obtain ⟨r, Ψ, r1, r2, r3, r4, r5, E, hE⟩ := c56_modReduce_bfv hc hne (hms.trans hsplit)
      (by rw [← hsplit]; exact List.take_prefix _ _) hx
    have hx0 : 0 ≤ x.error + s := le_trans (Finset.sum_nonneg fun j _ => pow_nonneg
      (by exact_mod_cast Finset.sum_nonneg fun _ _ => abs_nonneg _) j) hfloor
    have hN : (0 : ℝ) < m.N := by exact_mod_cast gm.prime.pos
    have hN2 : (2 : ℝ) ≤ m.N := by exact_mod_cast gm.prime.two_le
    have hQ : (modulusProd (ctx.qs.take (lev + (n + 1))) : ℤ) = modulusProd (ctx.qs.take (lev + n)) * m.N := by
      rw [hsplit]; unfold modulusProd; simp
    have hΨ : ∀ i, |((t : ℤ) * Ψ i - modulusProd (ctx.qs.take (lev + n)) * M i : ℤ)| ≤ t * (x.error + s) := fun i => by
      obtain ⟨e1, e2⟩ := hE i
      have hs : ∑ j ∈ Finset.range x.ct.c.length, norm1 (substPow x.ct.power.toNat S) ^ j ≤
          ∑ j ∈ Finset.range x.ct.c.length, norm1 S ^ j := Finset.sum_le_sum fun j _ =>
        pow_le_pow_left₀ (Finset.sum_nonneg fun _ _ => abs_nonneg _) (BgvStore.norm1_substPow_le _ _) j
      have e3 : 2 * |(E i : ℝ)| ≤ m.N * ∑ j ∈ Finset.range x.ct.c.length, (norm1 S : ℝ) ^ j := by
        have : (2 * |E i| : ℤ) ≤ m.N * ∑ j ∈ Finset.range x.ct.c.length, norm1 S ^ j :=
          e2.trans (mul_le_mul_of_nonneg_left hs (by positivity))
        exact_mod_cast this
      have e4 : (m.N : ℤ) * ((t : ℤ) * Ψ i - modulusProd (ctx.qs.take (lev + n)) * M i) =
          ((t : ℤ) * Φ i - modulusProd (ctx.qs.take (lev + (n + 1))) * M i) - t * E i := by
        rw [hQ]
        linear_combination (t : ℤ) * e1
      have e5 : (m.N : ℤ) * |(t : ℤ) * Ψ i - modulusProd (ctx.qs.take (lev + n)) * M i| ≤
          |(t : ℤ) * Φ i - modulusProd (ctx.qs.take (lev + (n + 1))) * M i| + t * |E i| := by
        have h1 := abs_sub ((t : ℤ) * Φ i - modulusProd (ctx.qs.take (lev + (n + 1))) * M i) (t * E i)
        rw [← e4, abs_mul, abs_mul, Nat.abs_cast, Nat.abs_cast] at h1
        exact h1
      have e6 : (m.N : ℝ) * ((|(t : ℤ) * Ψ i - modulusProd (ctx.qs.take (lev + n)) * M i| : ℤ) : ℝ) ≤
          ((|(t : ℤ) * Φ i - modulusProd (ctx.qs.take (lev + (n + 1))) * M i| : ℤ) : ℝ) + t * |(E i : ℝ)| := by
        exact_mod_cast e5
      have e7 := hΦ i
      have e8 : (t : ℝ) * |(E i : ℝ)| ≤ t * (m.N / 2 * (x.error + s)) := by
        refine mul_le_mul_of_nonneg_left ?_ (Nat.cast_nonneg _)
        have := mul_le_mul_of_nonneg_left hfloor hN.le
        linarith
      have e9 : (t : ℝ) * (x.error + s) ≤ t * (m.N / 2 * (x.error + s)) := by
        refine mul_le_mul_of_nonneg_left ?_ (Nat.cast_nonneg _)
        exact le_mul_of_one_le_left hx0 (by linarith)
      refine le_of_mul_le_mul_left (e6.trans ?_) hN
      have e10 : (m.N : ℝ) * (t * (x.error + s)) = t * (m.N / 2 * (x.error + s)) + t * (m.N / 2 * (x.error + s)) := by ring
      rw [e10]
      exact add_le_add (e7.trans e9) e8
    obtain ⟨y, Φ', y1, y2, y3, y4, y5, y6, y7⟩ := ih (x := ⟨r, x.error⟩) (by omega) r2 r5 hΨ (by
      show ∑ j ∈ Finset.range r.c.length, _ ≤ _
      rw [r4]; exact hfloor)
    refine ⟨y, Φ', ?_, y2, y3.trans r3, y4.trans r4, y5, y6, y7⟩
    unfold reduceTimesBfv RTracked.modReduceBfv
    rw [r1]
    exact y1

/-- **C108.** BFV: key and ciphertext are reduced the same number of times. If `t` times `Error()` is below `1/2 - ε` times the
product of the moduli that are left, the result decrypts, under the reduced key, to the slots that the ciphertext stood for. -/
theorem c108_bfv_decrypt {ε : ℚ} {est : Estimate} {e : FFEncoder} (he : GoodEncoder w l e) (hb : BfvConstants e.ctx e.mt)
    {lev : ℕ} (hlev : 0 < lev) (n : ℕ) (hn : lev + n ≤ e.ctx.qs.length) (hkm : k.ms = e.ctx.qs.take (lev + n))
    (hk : KeyIs l k S) (hest : EstimateWithin lev ε est) (hε : ε < 1 / 2) (hlen : lev < 2 ^ w) {x : RTracked}
    (hms : x.ct.ms = k.ms) (hp : x.ct.power = 1) (h0 : x.ct.c ≠ []) {Φ M : Fin (2 ^ l) → ℤ} {s : ℝ}
    (hx : Encrypts l S x.ct Φ) (hΦ : ∀ i, |((e.ctx.t : ℤ) * Φ i - modulusProd k.ms * M i : ℤ)| ≤ e.ctx.t * (x.error + s))
    (hfloor : ∑ j ∈ Finset.range x.ct.c.length, (norm1 S : ℝ) ^ j ≤ x.error + s) :
    ∃ k' y, reduceKey n k = .ok k' ∧ reduceTimesBfv e.ctx n x = .ok y ∧ y.error = x.error ∧
      (e.ctx.t * (y.error + s) < (1 / 2 - ε) * modulusProd (e.ctx.qs.take lev) →
        k'.decryptBfv (finiteFieldEncoder est e) y.ct =
          .ok (List.ofFn fun i : Fin (2 ^ l) => (slotsOf (nttRoot l e.mt) l M i).val)) := by
  obtain ⟨k', k1, k2, k3⟩ := reduceKey_ok hlev n hn hkm hk
  rw [hkm] at hΦ
  obtain ⟨y, Φ', y1, y2, y3, y4, y5, y6, y7⟩ := c108_bfv_reduce he.ctx hlev n hn (hms.trans hkm) hx hΦ hfloor
  refine ⟨k', y, k1, y1, y5, fun hv => ?_⟩
  have hkl : k'.ms.length = lev := by rw [k2, List.length_take]; omega
  have hne : k'.ms ≠ [] := List.length_pos_iff.mp (by omega)
  refine (c57_decrypt (by rw [hkl]; exact hest) hε he.ctx hb he.mt.create he.N k2 hne (by rw [hkl]; exact hlen) k3
    (y2.trans k2.symm) ?_ (y3.trans hp) (M := M) (v := (⌊e.ctx.t * (y.error + s)⌋ : ℤ)) ⟨Φ', y6, fun i => ?_⟩ ?_).2 e he rfl rfl
  · exact List.length_pos_iff.mp (by rw [y4]; exact List.length_pos_iff.mpr h0)
  · have h4 : |(e.ctx.t : ℤ) * Φ' i - modulusProd y.ct.ms * M i| ≤ ⌊e.ctx.t * (y.error + s)⌋ := by
      rw [Int.le_floor, y2]
      exact_mod_cast y7 i
    exact_mod_cast h4
  · have h5 := Int.floor_le (e.ctx.t * (y.error + s))
    have h6 : (((⌊e.ctx.t * (y.error + s)⌋ : ℤ) : ℚ) : ℝ) < (((1 / 2 - ε) * modulusProd k'.ms : ℚ) : ℝ) := by
      push_cast
      rw [k2]
      exact h5.trans_lt hv
    exact Rat.cast_lt.mp h6

/-- **C108.** BFV: as in C105, messages are encrypted and Galois keys are made with independent tapes of uniformly distributed
bytes. The bound is the one of C105 also for programs that are followed by reductions: on the probability that all keys and
ciphertexts are returned, and that there is any program, with a result whose `Error()` is large enough (see `c108_rotated`,
with 1 for `t`), and any number of reductions of this result and of the secret key, while moduli are left, that fails, or leads
to `t` times `Error()` below `1/2 - ε` times the product of the moduli that are left and yet does not decrypt to what the
program computes on the messages. -/
theorem c108_bfv_program [Fintype κ] (Gp : Gen τ) {ε : ℚ} {est : Estimate} {e : FFEncoder} (he : GoodEncoder w l e)
    (hb : BfvConstants e.ctx e.mt) (hl : l ≤ 15) (hk : RoomyKey w l k S) (hkm : k.ms = e.ctx.qs)
    (hε : ε < 1 / 2) (hlen : k.ms.length < 2 ^ w) (hw : 0 < w) {P : RErrorParams}
    (hP : ParamsFor P l k.variance) {g : RGadget} (hg : SmallGadget l k.ms g) {mss : List (List ℕ)}
    (hmsg : ∀ msgs ∈ mss, (∀ a ∈ msgs, a < 2 ^ w) ∧ msgs.length ≤ 2 ^ l ∧
      ∀ F : Fin (2 ^ l) → ℕ, (∀ j, F j < e.ctx.t) →
        (∀ i < 2 ^ l, slotsOf (nttRoot l e.mt) l (fun j => (F j : ℤ)) i = ((msgs.getD i 0 : ℕ) : ZMod e.mt.N)) →
        SizeAtMost (fun j => e.ctx.t * ⌈(modulusProd k.ms * F j : ℚ) / e.ctx.t⌉ - modulusProd k.ms * F j)
          (e.ctx.t * P.bPlaintext))
    (fuel : ℕ) (prng : PrngType) (power : κ → ℕ) (spg : κ → τ) (L : Option κ → ℕ) :
    tapesProbability L (fun t => ∃ xs s galois,
      inSequence (mss.map fun msgs => RnsErrorTrack.encryptBfv1 P bytesSource fuel k (finiteFieldEncoder est e) msgs)
        (t none) = .ok (xs, s) ∧
      (∀ j, RGalois.create Gp bytesSource fuel k (power j) k.variance g prng 1 (spg j) (t (some j)) = .ok (galois j)) ∧
      ∃ (u : BfvSwitchProgram (Fin mss.length) κ) (M : RPoly → Fin (2 ^ l) → ℤ) (ρ : RPoly → ℝ),
        u.Linear P l e.ctx.t k.ms M ρ ∧ ∃ lev n, 0 < lev ∧ lev + n = k.ms.length ∧ EstimateWithin lev ε est ∧
        ¬ ∃ r, u.run P est e.ctx (fun i : Fin mss.length => xs.getD i ⟨⟨[], [], 0⟩, 0⟩) galois = .ok r ∧
          (∑ j ∈ Finset.range r.ct.c.length, (norm1 S : ℝ) ^ j ≤ r.error + u.lacking P ρ →
            ∃ k' y, reduceKey n k = .ok k' ∧ reduceTimesBfv e.ctx n r = .ok y ∧ y.error = r.error ∧
              (e.ctx.t * (y.error + u.lacking P ρ) < (1 / 2 - ε) * modulusProd (e.ctx.qs.take lev) →
                k'.decryptBfv (finiteFieldEncoder est e) y.ct =
                  .ok (List.ofFn fun i : Fin (2 ^ l) =>
                    (u.eval (fun (j : Fin mss.length) i => (((mss.getD j []).getD i 0 : ℕ) : ZMod e.mt.N))
                      (fun p i => slotsOf (nttRoot l e.mt) l (M p) i) power i).val)))) ≤
      mss.length * (8 * 2 ^ l * exp (-30)) + Fintype.card κ * exp (-(9 * 2 ^ l * g.dimension)) := by
  obtain ⟨F, hF, hfresh⟩ := bfv_fresh_all est he hb hk hkm hP hmsg fuel
  obtain ⟨Gs, hgad⟩ := hg.gadget
  have hl31 : l < 31 := by omega
  have h1w : 1 < 2 ^ w := Nat.one_lt_two_pow (by omega)
  have h1P : ((1 : ℕ) : ℝ) ≤ P.exportT := by simpa using hP.one_le
  let B : Option κ → List (Fin 256) → Prop
    | none => fun t => ∃ xs s,
        inSequence (mss.map fun msgs => RnsErrorTrack.encryptBfv1 P bytesSource fuel k (finiteFieldEncoder est e) msgs) t =
          .ok (xs, s) ∧ ¬ ∀ i : Fin mss.length, Fresh k (xs.getD i ⟨⟨[], [], 0⟩, 0⟩).ct ∧
            BfvEstimated l S e.ctx.t (xs.getD i ⟨⟨[], [], 0⟩, 0⟩) (fun j => (F i j : ℤ)) 0
    | some j => fun t => ∃ key,
        RGalois.create Gp bytesSource fuel k (power j) k.variance g prng 1 (spg j) t = .ok key ∧
          ¬ QuietGalois l S P 1 key
  refine (tapesProbability_le L (B := B) ?_).trans ?_
  · rintro t ⟨xs, s, galois, h1, h3, u, M, ρ, hu, lev, n, hlev, htn, hest, hbad⟩
    by_contra hc
    push Not at hc
    have b1 : ∀ i : Fin mss.length, Fresh k (xs.getD i ⟨⟨[], [], 0⟩, 0⟩).ct ∧
        BfvEstimated l S e.ctx.t (xs.getD i ⟨⟨[], [], 0⟩, 0⟩) (fun j => (F i j : ℤ)) 0 := by
      by_contra hn
      exact hc none ⟨xs, s, h1, hn⟩
    have b3 : ∀ j, QuietGalois l S P 1 (galois j) := fun j => by
      by_contra hn
      exact hc (some j) ⟨galois j, h3 j, hn⟩
    have q3 := fun j => galois_drawn Gp hk.good hk.nonempty hgad hk.atMost hk.room h1w (h3 j)
    obtain ⟨psi, tb⟩ := he.mt.tables
    have hz : nttRoot l e.mt ^ 2 ^ l = -1 := by
      rw [nttRoot_eq he.mt tb]; exact tb.root
    obtain ⟨r, r0, r1, r2, r3, Φ, G, r4, r5, r6⟩ := bfv_run_ok hl tb.l1 hk.good.good hz P est e.ctx
      (fun i => ⟨(b1 i).1.1, (b1 i).1.2.1, (b1 i).1.2.2, (b1 i).2⟩) b3 (fun j => (q3 j).2.1) (fun j => (q3 j).1)
      (fun j => by have := (q3 j).2.2.2.2.1; omega)
      (fun j => by have := (q3 j).2.2.2.2.2.1; exact_mod_cast this) u hu
    refine hbad ⟨r, r0, fun hfloor => ?_⟩
    have hq : e.ctx.qs.length = lev + n := by rw [← hkm]; exact htn.symm
    obtain ⟨k', y, y1, y2, y3, y4⟩ := c108_bfv_decrypt (M := G) he hb hlev n hq.ge
      (by rw [hkm, List.take_of_length_le hq.le]) hk.good.key hest hε (by omega) r1 r2 (List.length_pos_iff.mp (by omega)) r4
      (fun i => by exact_mod_cast r5 i) hfloor
    refine ⟨k', y, y1, y2, y3, fun hv => ?_⟩
    rw [y4 hv]
    congr 2
    funext i
    rw [r6]
    congr 2
    funext j i
    exact hF j j.2 i
  · rw [Fintype.sum_option]
    have e1 := hfresh (L none)
    have e3 : ∑ j, bytesProbability (L (some j)) (B (some j)) ≤
        ∑ _j : κ, exp (-(9 * 2 ^ l * g.dimension : ℝ)) := Finset.sum_le_sum fun j _ =>
      c105_galois Gp hk.good hk.nonempty hl31 hg hk.atMost hk.room hP h1w h1P fuel (power j) prng (spg j) (L (some j))
    rw [Finset.sum_const, Finset.card_univ, nsmul_eq_mul] at e3
    have e1' : bytesProbability (L none) (B none) ≤ mss.length * (8 * 2 ^ l * exp (-30)) := e1
    linarith

end Shell
