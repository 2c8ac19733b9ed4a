import Verif.Lemmas.ErrorTail
import Verif.Spec.Tape
import Verif.Props.WordPublic
import Verif.Props.ErrorTrack
/-!
# Property C83: how often the error estimates are exceeded

The estimates of C65 are not bounds for all samples. For uniformly distributed bytes the probability that they are
exceeded is at most a small multiple of `n * exp (-30)`.
-/

namespace Shell
open Spec WordCt ErrorTrack MParams Ntt NttRing Sym Real
variable {σ τ ρ : Type} {C : Ctx} {p : MParams} {q : NttParams}

/-! ## Sampled polynomials -/

/-- What the sampler returns, read off the tape. -/
theorem sampleError_tape {w N : ℕ} (h : create w N = .ok p) {n v : ℕ} (hN : 4 * v < N) {t s : List (Fin 256)}
    {cs : List ℕ} (hs : Sampler.sampleError bytesSource p n v t = .ok (cs, s)) :
    ∃ pss, ((coeffTree v).times n).run t = .ok (pss, s) ∧
      signedCoeffs p N n cs = fun i : Fin n => coeffOf v (pss.getD i []) := by
  by_cases hv : 256 < v
  · rw [c38_rejects _ _ _ _ _ hv] at hs; cases hs
  rw [c38_sample_partial bytesSource bytesSource_words h n v (by omega) (by omega)] at hs
  obtain ⟨⟨pss, s1⟩, h1, h2⟩ := Outcome.bind_eq_ok.mp hs
  cases h2
  rw [((pairsTree_is _).times n) t] at h1
  refine ⟨pss, h1, ?_⟩
  have g := good_of_create h
  have hlen : pss.length = n := by
    have := h1
    rw [← ((pairsTree_is _).times n) t] at this
    exact Sampler.times_length _ _ _ _ _ this
  funext i
  have hi : (i : ℕ) < pss.length := by rw [hlen]; exact i.2
  unfold signedCoeffs
  rw [List.getD_eq_getElem _ _ (by simpa using hi), List.getElem_map, List.getD_eq_getElem _ _ hi]
  obtain ⟨b1, b2⟩ := Sampler.noise_bound (Sampler.sizes (2 * v)) pss[i]
  rw [Sampler.sizes_sum] at b1 b2
  replace b1 : -(2 * (v : ℤ)) ≤ noise (Sampler.sizes (2 * v)) pss[i] := by push_cast at b1; linarith
  replace b2 : noise (Sampler.sizes (2 * v)) pss[i] ≤ 2 * (v : ℤ) := by push_cast at b2; linarith
  have hnn : 0 ≤ noise (Sampler.sizes (2 * v)) pss[i] % (N : ℤ) := Int.emod_nonneg _ (by omega)
  have hltN : noise (Sampler.sizes (2 * v)) pss[i] % (N : ℤ) < N := Int.emod_lt_of_pos _ (by omega)
  have hx : ∀ x : ℤ, -(2 * (v : ℤ)) ≤ x → x ≤ 2 * (v : ℤ) → 0 ≤ x % (N : ℤ) → x % (N : ℤ) < N →
      centered N ((Mont.exportInt p (Mont.importInt p (x % (N : ℤ)).toNat) : ℕ) : ZMod N) = x := by
    intro x b1 b2 hnn hltN
    haveI : NeZero N := ⟨by omega⟩
    rw [((c01_import_export h).1 _ (by have := g.lt; omega)).1]
    have e1 : (((x % (N : ℤ)).toNat % N : ℕ) : ZMod N) = ((x : ℤ) : ZMod N) := by
      have e2 : (((x % (N : ℤ)).toNat % N : ℕ) : ℤ) = x % N := by
        rw [Nat.mod_eq_of_lt (by omega), Int.toNat_of_nonneg hnn]
      rw [← Int.cast_natCast, e2, ZMod.intCast_mod]
    rw [e1]
    exact centered_eq N x (by omega) (by omega)
  exact hx _ b1 b2 hnn hltN

/-- The integers held by the words of a small polynomial. -/
theorem signed_rep {w N n : ℕ} (g : Good p w N) {cs : List ℕ} {e : Fin n → ℤ} (hr : Poly.Rep p N n cs (modq N e))
    (he : ∀ i, 2 * |e i| < N) : signedCoeffs p N n cs = e := by
  funext i
  haveI : NeZero N := ⟨by have := g.pos; omega⟩
  have h1 := hr.val i
  have hlt := hr.le i i.2
  unfold signedCoeffs
  rw [show ((Mont.exportInt p (cs.getD i 0) : ℕ) : ZMod N) = ((e i : ℤ) : ZMod N) from
    (res_export g hlt).trans h1]
  have := abs_lt.mp (show |e i| < N by have := he i; have := abs_nonneg (e i); omega)
  have h2 := he i
  have h3 := le_abs_self (e i)
  have h4 := neg_abs_le (e i)
  exact centered_eq N (e i) (by omega) (by omega)

open Classical in
/-- C83: for uniformly distributed bytes, the probability that `SampleFromErrorDistribution` returns a polynomial with
a value of more than `6 sigma sqrt n` at a root of `X^n + 1`. -/
theorem c83_error {w N : ℕ} (h : create w N = .ok p) {n v : ℕ} (hn : n ≠ 0) (he : Even n) (hv : 0 < v) (hN : 4 * v < N)
    (L : ℕ) :
    bytesProbability L (fun t => ∃ cs s, Sampler.sampleError bytesSource p n v t = .ok (cs, s) ∧
      ¬ SizeAtMost (signedCoeffs p N n cs) (6 * √v * √n)) ≤ 8 * n * exp (-30) := by
  refine (bytesProbability_le ((coeffTree v).times n)
    (bad := fun pss => ¬ SizeAtMost (fun i : Fin n => coeffOf v (pss.getD i [])) (6 * √v * √n)) ?_ L).trans
    (poly_tail hv hn he)
  rintro t ⟨cs, s, h1, h2⟩
  obtain ⟨pss, r1, r2⟩ := sampleError_tape h hN h1
  exact ⟨pss, s, r1, by rw [r2] at h2; exact h2⟩

/-! ## Fresh encryptions under the secret key -/

/-- A computation that reads its tape byte by byte. -/
def Reads {α : Type} (c : List (Fin 256) → Outcome (α × List (Fin 256))) : Prop := ∃ T : Tree α, T.Is c

namespace Reads
variable {α β : Type}

theorem bind {c : List (Fin 256) → Outcome (α × List (Fin 256))} (h : Reads c)
    {d : α → List (Fin 256) → Outcome (β × List (Fin 256))} (h' : ∀ a, Reads (d a)) :
    Reads fun t => c t >>= fun r => d r.1 r.2 := by
  obtain ⟨T, hT⟩ := h
  choose f hf using h'
  exact ⟨_, hT.bind hf⟩

theorem lift (o : Outcome α) : Reads fun t => o >>= fun a => .ok (a, t) := ⟨.ret o, fun _ => rfl⟩

theorem pure (a : α) : Reads fun t => .ok (a, t) := lift (.ok a)

theorem ub (e : UB) : Reads fun _ => (.ub e : Outcome (α × List (Fin 256))) := ⟨.ret (.ub e), fun _ => rfl⟩

theorem err (e : Status) : Reads fun _ => (.err e : Outcome (α × List (Fin 256))) := ⟨.ret (.err e), fun _ => rfl⟩

/-- Compute something without reading. -/
theorem after {o : Outcome α} {d : α → List (Fin 256) → Outcome (β × List (Fin 256))} (h : ∀ a, Reads (d a)) :
    Reads fun t => o >>= fun a => d a t := by
  cases o with
  | ok a => exact h a
  | err e => exact err e
  | ub e => exact ub e

theorem loop {g : ℕ → β × List (Fin 256) → Outcome (β × List (Fin 256))} (h : ∀ i b, Reads fun t => g i (b, t))
    (n : ℕ) (b : β) : Reads fun t => Shell.loop n g (b, t) := by
  choose f hf using h
  exact ⟨_, Tree.Is.loop hf n 0 b⟩

end Reads

theorem generateLoop_reads (w fuel bits rand : ℕ) :
    Reads fun t => Sampler.generateLoop bytesSource w fuel bits rand t := by
  induction fuel generalizing bits rand with
  | zero =>
    unfold Sampler.generateLoop
    split_ifs
    · exact .pure _
    · exact .ub _
  | succ fuel ih =>
    unfold Sampler.generateLoop
    split_ifs
    · exact .pure _
    · exact .bind (d := fun r t => Transcription.shl w 1 bits >>= fun m => Transcription.shl w rand bits >>= fun hi =>
        .ok (trunc w (hi + ((r % 2 ^ w) &&& trunc w ((m : ℤ) - 1) : ℕ) : ℤ), t)) ⟨_, byteTree_is⟩
        fun r => .after fun m => .after fun hi => .pure _
    · exact .bind (d := fun r t => Transcription.shl w 1 (min bits (min w 64)) >>= fun m =>
        Transcription.shl w rand (min bits (min w 64)) >>= fun hi => Sampler.generateLoop bytesSource w fuel
          (bits - min bits (min w 64)) (trunc w (hi + ((r % 2 ^ w) &&& trunc w ((m : ℤ) - 1) : ℕ) : ℤ)) t)
        ⟨_, wordTree_is⟩ fun r => .after fun m => .after fun hi => ih _ _

theorem importRandom_reads (p : MParams) (fuel : ℕ) : Reads fun t => Sampler.importRandom bytesSource p fuel t := by
  induction fuel with
  | zero => exact .ub _
  | succ fuel ih =>
    unfold Sampler.importRandom
    refine .bind (d := fun r t => if r ≥ p.modulus then Sampler.importRandom bytesSource p fuel t else .ok (r, t)) ?_ ?_
    · exact generateLoop_reads _ _ _ _
    · intro r
      split_ifs
      · exact ih
      · exact .pure _

theorem pad_reads (p : MParams) (fuel : ℕ) (n : ℤ) : Reads (Sampler.samplePolynomial bytesSource p fuel n) := by
  unfold Sampler.samplePolynomial
  split_ifs
  · exact .err _
  · refine .loop (fun i b => ?_) _ _
    exact .bind (d := fun c t => .ok (b ++ [c], t)) (importRandom_reads p fuel) fun c => .pure _


/-- A ciphertext whose noisy plaintext has a size of less than half the modulus. -/
theorem estimate_holds {w N l : ℕ} (g : Good p w N) (hp : N.Prime) {psi : ZMod N} (tb : Tables p w N l psi q)
    (k : Word.Key) (k1 : k.p = p) (k2 : k.q = q) {S : Fin (2 ^ l) → ZMod N} (hS : Poly.Rep p N (2 ^ l) k.key S) {T : ℕ}
    (hT : Mont.exportInt k.tp k.tMod = T) (hTN : T ≤ N) (x : Word.Ct) {X : List (Fin (2 ^ l) → ZMod N)}
    (hx : List.Forall₂ (Poly.Rep p N (2 ^ l)) x.c X) (m : Fin (2 ^ l) → ℕ) (hm : ∀ i, m i < T) (e : Fin (2 ^ l) → ℤ)
    (hph : ntt psi l (modq N fun i => (m i : ℤ) + T * e i) = phase S X) {B : ℝ}
    (hB : SizeAtMost (fun i => (m i : ℤ) + T * e i) B) (hfit : 2 * B < N) :
    ∃ em, Word.extract k x = .ok em ∧ SizeAtMost (signedCoeffs p N (2 ^ l) em) B ∧
      Word.decrypt k x = .ok (List.ofFn m) := by
  haveI : NeZero N := ⟨hp.ne_zero⟩
  haveI : NeZero (2 ^ l) := ⟨by positivity⟩
  have hsmall : ∀ i, 2 * |(m i : ℤ) + T * e i| < N := fun i => by
    have h1 := coeff_le_size hB i
    have h2 : (2 : ℝ) * |(((m i : ℤ) + T * e i : ℤ) : ℝ)| < N := by linarith
    exact_mod_cast h2
  have hT0 : 0 < T := by have := hm 0; omega
  have hin : intt psi l (phase S X) = modq N fun i => (m i : ℤ) + T * e i := by
    rw [← hph]
    exact intt_ntt hp g.odd tb.root (by have := tb.l15; omega) _
  obtain ⟨em, r1, r2⟩ := Word.extract_word g hp tb k k1 k2 hS x hx
  rw [hin] at r2
  refine ⟨em, r1, by rw [signed_rep g r2 hsmall]; exact hB, ?_⟩
  rw [Word.decrypt_word g hp tb k k1 k2 hS hT hT0 hTN x hx, hin]
  congr 2
  funext i
  have h3 := hsmall i
  have h4 := le_abs_self ((m i : ℤ) + T * e i)
  have h5 := neg_abs_le ((m i : ℤ) + T * e i)
  show (centered N (((m i : ℤ) + T * e i : ℤ) : ZMod N) % (T : ℤ)).toNat = m i
  rw [centered_eq N _ (by omega) (by omega), Int.add_mul_emod_self_left,
    Int.emod_eq_of_lt (by omega) (by have := hm i; omega)]
  omega

open Classical in
/-- C83: for uniformly distributed bytes, every secret key, and every plaintext of the size the estimates assume, the
probability that `Encrypt` returns a ciphertext whose noisy plaintext exceeds its `Error()`, or that does not decrypt to
the message although twice the estimate is below the modulus. -/
theorem c83_secret {w N : ℕ} (h : create w N = .ok p) (hw : w ≤ 128) (hp : N.Prime) {l : ℕ} (hq : initNtt p l = .ok q)
    (G : Gen σ) {variance logT : ℕ} {s s' : σ} {k : Word.Key}
    (hk : Word.Key.sample G p q l variance logT s = .ok (k, s')) (hT : 2 ^ logT + 1 < N) (hT64 : 2 ^ logT + 1 < 2 ^ 64)
    (hvar : 0 < variance) (hN : 4 * variance < N) {P : ErrorParams} (hPt : P.t = 2 ^ logT + 1)
    (hPv : P.variance = variance) (m : Fin (2 ^ l) → ℕ) (hm : ∀ i, m i < 2 ^ logT + 1)
    (hsize : SizeAtMost (fun i => (m i : ℤ)) (P.bPlaintext (2 ^ l))) (hfit : 2 * P.bEncryption (2 ^ l) < N)
    {pt : List ℕ} (hv : ValidPoly N (2 ^ l) pt) (hpt : HasCoeffs p q N (2 ^ l) pt fun i => (m i : ZMod N))
    (fuel bits L : ℕ) :
    bytesProbability L (fun t => ∃ x s, Word.encrypt bytesSource fuel k pt bits t = .ok (x, s) ∧
      ¬ ∃ em, Word.extract k x = .ok em ∧ SizeAtMost (signedCoeffs p N (2 ^ l) em) (P.bEncryption (2 ^ l)) ∧
        Word.decrypt k x = .ok (List.ofFn m)) ≤ 8 * 2 ^ l * exp (-30) := by
  have g := good_of_create h
  haveI : NeZero N := ⟨hp.ne_zero⟩
  haveI : Fact N.Prime := ⟨hp⟩
  obtain ⟨k1, k2, k3, k4, k5, k6, k7, k8⟩ := sample_word G h hp hq hk hT
  obtain ⟨psi, hC, tb⟩ := fit_of_create h hw hp hq
  obtain ⟨A, hA⟩ := pad_reads p fuel ((2 ^ l : ℕ) : ℤ)
  have hn : 2 ^ l ≠ 0 := by positivity
  have he : Even (2 ^ l) := (Nat.even_pow.mpr ⟨even_two, by have := tb.l1; omega⟩)
  have htail := poly_tail hvar hn he
  push_cast at htail
  refine (bytesProbability_le (A.bind fun _ => (coeffTree variance).times (2 ^ l))
    (bad := fun pss => ¬ SizeAtMost (fun i : Fin (2 ^ l) => coeffOf variance (pss.getD i []))
      (6 * √variance * √((2 : ℝ) ^ l))) ?_ L).trans ?_
  · rintro t ⟨x, s, hx, hbad⟩
    obtain ⟨X, e, e1, e2, e3, e4, e5, a, t₁, cs, d1, d2, d3⟩ :=
      fresh_drawn bytesSource bytesSource_words h hp tb k k1 k2 k6 (by omega) k7 k8 m hv hpt hx
    rw [k4] at d2 e4
    obtain ⟨pss, r1, r2⟩ := sampleError_tape h hN d2
    refine ⟨pss, s, ?_, fun hsz => hbad ?_⟩
    · rw [Tree.run_bind, ← hA t, d1, Outcome.bind_ok]
      exact r1
    · have hee : signedCoeffs p N (2 ^ l) cs = e := signed_rep g d3 fun i => by
        have := e4 i
        omega
      rw [← r2, hee] at hsz
      have hnoisy : SizeAtMost (fun i => (m i : ℤ) + ((2 ^ logT + 1 : ℕ) : ℤ) * e i) (P.bEncryption (2 ^ l)) := by
        refine (hsize.add (hsz.smul ((2 ^ logT + 1 : ℕ) : ℤ))).mono (le_of_eq ?_)
        unfold ErrorTrack.ErrorParams.bPlaintext ErrorTrack.ErrorParams.bEncryption ErrorTrack.ErrorParams.exportT
          ErrorTrack.ErrorParams.sigma
        rw [hPt, hPv, Nat.mod_eq_of_lt hT64, sqrt_three_mul, Int.cast_natCast, abs_of_nonneg (Nat.cast_nonneg _)]
        push_cast
        ring
      exact estimate_holds g hp tb k k1 k2 (k6.rep (p := p)) (by rw [k3]; exact k8) hT.le x e1 m hm e e5 hnoisy hfit
  · rw [Tree.expect_bind]
    exact (Tree.expect_le _ (by positivity) fun _ => htail)

/-! ## Fresh encryptions under a public key -/

theorem bytesProbability_nonneg (L : ℕ) (event : List (Fin 256) → Prop) : 0 ≤ bytesProbability L event := by
  unfold bytesProbability
  positivity

theorem bytesProbability₃_le {L₁ L₂ L₃ : ℕ} {event : List (Fin 256) → List (Fin 256) → List (Fin 256) → Prop}
    {B₁ B₂ B₃ : List (Fin 256) → Prop} (h : ∀ t₁ t₂ t₃, event t₁ t₂ t₃ → B₁ t₁ ∨ B₂ t₂ ∨ B₃ t₃) :
    bytesProbability₃ L₁ L₂ L₃ event ≤ bytesProbability L₁ B₁ + bytesProbability L₂ B₂ + bytesProbability L₃ B₃ := by
  classical
  unfold bytesProbability₃ bytesProbability
  have hsub : ((Finset.univ : Finset ((Fin L₁ → Fin 256) × (Fin L₂ → Fin 256) × (Fin L₃ → Fin 256))).filter fun t =>
      event (List.ofFn t.1) (List.ofFn t.2.1) (List.ofFn t.2.2)) ⊆
      ((Finset.univ.filter fun t : Fin L₁ → Fin 256 => B₁ (List.ofFn t)) ×ˢ Finset.univ) ∪
      ((Finset.univ ×ˢ ((Finset.univ.filter fun t : Fin L₂ → Fin 256 => B₂ (List.ofFn t)) ×ˢ Finset.univ)) ∪
      (Finset.univ ×ˢ (Finset.univ ×ˢ (Finset.univ.filter fun t : Fin L₃ → Fin 256 => B₃ (List.ofFn t))))) := by
    intro t ht
    have := h _ _ _ (Finset.mem_filter.mp ht).2
    simp only [Finset.mem_union, Finset.mem_product, Finset.mem_filter, Finset.mem_univ, true_and, and_true]
    exact this
  have hc := (Finset.card_le_card hsub).trans ((Finset.card_union_le _ _).trans
    (Nat.add_le_add_left (Finset.card_union_le _ _) _))
  simp only [Finset.card_product, Finset.card_univ, Fintype.card_prod, Fintype.card_fun, Fintype.card_fin] at hc
  have hc' : ((((Finset.univ : Finset ((Fin L₁ → Fin 256) × (Fin L₂ → Fin 256) × (Fin L₃ → Fin 256))).filter fun t =>
      event (List.ofFn t.1) (List.ofFn t.2.1) (List.ofFn t.2.2)).card : ℕ) : ℝ) ≤ _ := Nat.cast_le.mpr hc
  rw [div_add_div _ _ (by positivity) (by positivity), div_add_div _ _ (by positivity) (by positivity),
    div_le_div_iff₀ (by positivity) (by positivity)]
  push_cast at hc'
  have := mul_le_mul_of_nonneg_right hc' (show (0 : ℝ) ≤ 256 ^ L₁ * 256 ^ L₂ * 256 ^ L₃ by positivity)
  refine this.trans (le_of_eq ?_)
  rw [pow_add, pow_add]
  ring

open Classical in
/-- The probability that one of three polynomials drawn one after the other is large. -/
theorem three_tail {w N : ℕ} (h : create w N = .ok p) {n v : ℕ} (hn : n ≠ 0) (he : Even n) (hv : 0 < v) (hN : 4 * v < N)
    (L : ℕ) :
    bytesProbability L (fun t => ∃ a s₁ b s₂ c s₃, Sampler.sampleError bytesSource p n v t = .ok (a, s₁) ∧
      Sampler.sampleError bytesSource p n v s₁ = .ok (b, s₂) ∧ Sampler.sampleError bytesSource p n v s₂ = .ok (c, s₃) ∧
      ¬ (SizeAtMost (signedCoeffs p N n a) (6 * √v * √n) ∧ SizeAtMost (signedCoeffs p N n b) (6 * √v * √n) ∧
        SizeAtMost (signedCoeffs p N n c) (6 * √v * √n))) ≤ 3 * (8 * n * exp (-30)) := by
  set T := (coeffTree v).times n with hT
  set bad : List (List (ℕ × ℕ)) → Prop := fun pss =>
    ¬ SizeAtMost (fun i : Fin n => coeffOf v (pss.getD i [])) (6 * √v * √n) with hbad
  have hone : T.expect (fun a => if bad a then 1 else 0) ≤ 8 * n * exp (-30) := poly_tail hv hn he
  refine (bytesProbability_le (T.bind fun a => T.bind fun b => T.bind fun c => .ret (.ok (a, b, c)))
    (bad := fun r => bad r.1 ∨ bad r.2.1 ∨ bad r.2.2) ?_ L).trans ?_
  · rintro t ⟨a, s₁, b, s₂, c, s₃, h1, h2, h3, h4⟩
    obtain ⟨a', a1, a2⟩ := sampleError_tape h hN h1
    obtain ⟨b', b1, b2⟩ := sampleError_tape h hN h2
    obtain ⟨c', c1, c2⟩ := sampleError_tape h hN h3
    refine ⟨(a', b', c'), s₃, ?_, ?_⟩
    · rw [Tree.run_bind, a1, Outcome.bind_ok, Tree.run_bind, b1, Outcome.bind_ok, Tree.run_bind, c1, Outcome.bind_ok]
      rfl
    · rw [a2, b2, c2] at h4
      simp only [hbad]
      tauto
  · have hle : ∀ a b c, (if bad a ∨ bad b ∨ bad c then (1 : ℝ) else 0) ≤
        (if bad a then 1 else 0) + ((if bad b then 1 else 0) + (if bad c then 1 else 0)) := by
      intro a b c
      by_cases h1 : bad a <;> by_cases h2 : bad b <;> by_cases h3 : bad c <;> simp [h1, h2, h3] <;> norm_num
    have hε : (0 : ℝ) ≤ 8 * n * exp (-30) := by positivity
    rw [Tree.expect_bind]
    simp only [Tree.expect_bind]
    have i1 : ∀ a b, (T.expect fun c => if bad a ∨ bad b ∨ bad c then (1 : ℝ) else 0) ≤
        (if bad a then 1 else 0) + ((if bad b then 1 else 0) + 8 * n * exp (-30)) := by
      intro a b
      refine (T.expect_mono fun c => hle a b c).trans ?_
      rw [Tree.expect_add, Tree.expect_add]
      have z : ∀ P : Prop, [Decidable P] → (0 : ℝ) ≤ if P then 1 else 0 := fun P _ => by split_ifs <;> norm_num
      have := T.expect_const_le (z (bad a))
      have := T.expect_const_le (z (bad b))
      linarith
    have i2 : ∀ a, (T.expect fun b => T.expect fun c => if bad a ∨ bad b ∨ bad c then (1 : ℝ) else 0) ≤
        (if bad a then 1 else 0) + (8 * n * exp (-30) + 8 * n * exp (-30)) := by
      intro a
      refine (T.expect_mono fun b => i1 a b).trans ?_
      rw [Tree.expect_add, Tree.expect_add]
      have z : ∀ P : Prop, [Decidable P] → (0 : ℝ) ≤ if P then 1 else 0 := fun P _ => by split_ifs <;> norm_num
      have := T.expect_const_le (z (bad a))
      have := T.expect_const_le hε
      linarith
    refine (T.expect_mono fun a => i2 a).trans ?_
    rw [Tree.expect_add]
    have := T.expect_const_le (add_nonneg hε hε)
    linarith

open Classical in
/-- C83: three independent tapes of uniformly distributed bytes, for `Sample` of the secret key, for the error in
`Create` of the public key, and for `Encrypt` with the public key; the variances of the keys do not exceed that of the
encryption. The probability that all three succeed but the noisy plaintext of the ciphertext exceeds its `Error()`, or
the ciphertext does not decrypt to the message although twice `Error()` is below the modulus. -/
theorem c83_public {w N : ℕ} (h : create w N = .ok p) (hw : w ≤ 128) (hp : N.Prime) {l : ℕ} (hq : initNtt p l = .ok q)
    {variance vk V logT : ℕ} (hT : 2 ^ logT + 1 < N) (hT64 : 2 ^ logT + 1 < 2 ^ 64) (h1 : 0 < variance) (h2 : 0 < vk)
    (h1V : variance ≤ V) (h2V : vk ≤ V) (hN : 4 * V < N) {P : ErrorParams} (hPt : P.t = 2 ^ logT + 1)
    (m : Fin (2 ^ l) → ℕ) (hm : ∀ i, m i < 2 ^ logT + 1)
    (hsize : SizeAtMost (fun i => (m i : ℤ)) (P.bPlaintext (2 ^ l)))
    (hfit : ∃ b, P.bPublicKey (2 ^ l) V = .ok b ∧ 2 * b < N)
    {pt : List ℕ} (hv : ValidPoly N (2 ^ l) pt) (hpt : HasCoeffs p q N (2 ^ l) pt fun i => (m i : ZMod N))
    (fuel : ℕ) (prng : PrngType) (seed : List ℕ) (L₁ L₂ L₃ : ℕ) :
    bytesProbability₃ L₁ L₂ L₃ (fun t₁ t₂ t₃ => ∃ k s pk x s',
      Word.Key.sample bytesSource p q l variance logT t₁ = .ok (k, s) ∧
      Word.PKey.create tapeRng fuel k vk prng seed (t₂.map Fin.val) = .ok pk ∧
      pk.encrypt bytesSource pt V P.bPublicKey (some t₃) = .ok (x, s') ∧
      ¬ ∃ em, Word.extract k ⟨x.c, x.power, 0⟩ = .ok em ∧ SizeAtMost (signedCoeffs p N (2 ^ l) em) x.error ∧
        Word.decrypt k ⟨x.c, x.power, 0⟩ = .ok (List.ofFn m)) ≤ 5 * (8 * 2 ^ l * exp (-30)) := by
  have g := good_of_create h
  haveI : NeZero N := ⟨hp.ne_zero⟩
  haveI : Fact N.Prime := ⟨hp⟩
  obtain ⟨psi, hC, tb⟩ := fit_of_create h hw hp hq
  have hn : 2 ^ l ≠ 0 := by positivity
  have he : Even (2 ^ l) := (Nat.even_pow.mpr ⟨even_two, by have := tb.l1; omega⟩)
  have q1 := c83_error h hn he h1 (by omega) L₁
  have q2 := c83_error h hn he h2 (by omega) L₂
  have q3 := three_tail h hn he (show 0 < V by omega) hN L₃
  have key := bytesProbability₃_le (L₁ := L₁) (L₂ := L₂) (L₃ := L₃) (event := fun t₁ t₂ t₃ => ∃ k s pk x s',
      Word.Key.sample bytesSource p q l variance logT t₁ = .ok (k, s) ∧
      Word.PKey.create tapeRng fuel k vk prng seed (t₂.map Fin.val) = .ok pk ∧
      pk.encrypt bytesSource pt V P.bPublicKey (some t₃) = .ok (x, s') ∧
      ¬ ∃ em, Word.extract k ⟨x.c, x.power, 0⟩ = .ok em ∧ SizeAtMost (signedCoeffs p N (2 ^ l) em) x.error ∧
        Word.decrypt k ⟨x.c, x.power, 0⟩ = .ok (List.ofFn m))
    (B₁ := fun t => ∃ cs s, Sampler.sampleError bytesSource p (2 ^ l) variance t = .ok (cs, s) ∧
      ¬ SizeAtMost (signedCoeffs p N (2 ^ l) cs) (6 * √variance * √(2 ^ l : ℕ)))
    (B₂ := fun t => ∃ cs s, Sampler.sampleError bytesSource p (2 ^ l) vk t = .ok (cs, s) ∧
      ¬ SizeAtMost (signedCoeffs p N (2 ^ l) cs) (6 * √vk * √(2 ^ l : ℕ)))
    (B₃ := fun t => ∃ a s₁ b s₂ c s₃, Sampler.sampleError bytesSource p (2 ^ l) V t = .ok (a, s₁) ∧
      Sampler.sampleError bytesSource p (2 ^ l) V s₁ = .ok (b, s₂) ∧
      Sampler.sampleError bytesSource p (2 ^ l) V s₂ = .ok (c, s₃) ∧
      ¬ (SizeAtMost (signedCoeffs p N (2 ^ l) a) (6 * √V * √(2 ^ l : ℕ)) ∧
        SizeAtMost (signedCoeffs p N (2 ^ l) b) (6 * √V * √(2 ^ l : ℕ)) ∧
        SizeAtMost (signedCoeffs p N (2 ^ l) c) (6 * √V * √(2 ^ l : ℕ)))) ?_
  · refine key.trans ?_
    push_cast at q1 q2 q3 ⊢
    linarith
  rintro t₁ t₂ t₃ ⟨k, s, pk, x, s', f1, f2, f3, f4⟩
  by_contra hc
  push Not at hc
  obtain ⟨hc1, hc2, hc3⟩ := hc
  apply f4
  obtain ⟨k1, k2, k3, k4, k5, k6, k7, k8⟩ := sample_word bytesSource h hp hq f1 hT
  let C : Ctx := ⟨w, N, l, psi⟩
  obtain ⟨S, s1, s2, cs, s3, s4⟩ := sample_drawn bytesSource bytesSource_words h tb (by omega) f1
  have hpm : plaintextModulus w logT = .ok (2 ^ logT + 1) := by
    have hf := g.lt
    have hlt : logT < w := by
      by_contra hc
      have : 2 ^ w ≤ 2 ^ logT := Nat.pow_le_pow_right (by norm_num) (by omega)
      omega
    unfold plaintextModulus Transcription.shl
    rw [if_pos (by omega), Outcome.bind_ok, Nat.one_shiftLeft,
      Nat.mod_eq_of_lt (by omega : 2 ^ logT < 2 ^ w), Nat.mod_eq_of_lt (by omega)]
    rfl
  obtain ⟨K, a1, a2, a3, a4, a5, a6⟩ := sample_ok (C := C) hC.ok (modq N S) variance logT hT
  have hKv : K.variance = variance := by
    unfold Key.sample at a1
    rw [show C.w = w from rfl, hpm, Outcome.bind_ok] at a1
    cases a1
    rfl
  have hK : HoldsKey C p q k K := ⟨k1, k2, by rw [a2]; exact s2, by rw [k4, hKv], k7.le, by rw [k8, a5]⟩
  obtain ⟨a, E, PK, c1, c2, c3, tE, e, tE', c4, c5, c6⟩ :=
    public_create_drawn hC tb tapeRng (fun _ => bytesSource_words) h hK (by push_cast; show (2 : ℤ) * vk ≤ (N : ℤ); omega) f2
  -- the error of the public key
  have htE : tE = t₂ := by
    unfold Word.Rng.start at c4
    split_ifs at c4
    have := Outcome.ok.inj c4
    rw [← this, List.map_map]
    refine (List.map_congr_left fun b _ => ?_).trans (List.map_id _)
    show Fin.ofNat 256 (b : ℕ) = b
    exact Fin.ext (Nat.mod_eq_of_lt b.2)
  subst htE
  rw [Int.toNat_natCast] at c5
  have zS := hc1 cs s s3
  have zE := hc2 e tE' c5
  rw [signed_rep g s4 fun i => by have := s1 i; omega] at zS
  rw [signed_rep (n := 2 ^ l) g c6 fun i => by have := c1 i; show 2 * |E i| < (N : ℤ); omega] at zE
  -- the polynomials of the encryption
  obtain ⟨b, hb1, hb2⟩ := hfit
  have hf3 := f3
  unfold Word.PKey.encrypt at f3
  rw [if_neg (by omega)] at f3
  dsimp only at f3
  rw [c3.params, c3.ntt, c3.a.len] at f3
  obtain ⟨⟨v, s₁⟩, g1, f3⟩ := Outcome.bind_eq_ok.mp f3
  obtain ⟨v', -, f3⟩ := Outcome.bind_eq_ok.mp f3
  obtain ⟨⟨e0, s₂⟩, g2, f3⟩ := Outcome.bind_eq_ok.mp f3
  obtain ⟨⟨e1, s₃⟩, g3, -⟩ := Outcome.bind_eq_ok.mp f3
  obtain ⟨x', X, Vv, E0, E1, i1, i2, i3, i4, i5, i6, i7, i8, i9⟩ := public_encrypt_word hC tb bytesSource
    bytesSource_words h c3 (by omega) (by show (2 : ℤ) * V ≤ (N : ℤ); omega) (hv.rep (p := p)) P g1 g2 g3
  rw [i1] at hf3
  cases hf3
  rw [Int.toNat_natCast] at g1 g2 g3
  obtain ⟨zV, zE0, zE1⟩ := hc3 v s₁ e0 s₂ e1 _ g1 g2 g3
  rw [signed_rep (n := 2 ^ l) g i7 fun i => by have := i2 i; show 2 * |Vv i| < (N : ℤ); omega] at zV
  rw [signed_rep (n := 2 ^ l) g i8 fun i => by have := i3 i; show 2 * |E0 i| < (N : ℤ); omega] at zE0
  rw [signed_rep (n := 2 ^ l) g i9 fun i => by have := i4 i; show 2 * |E1 i| < (N : ℤ); omega] at zE1
  have hmm : C.toNtt (modq C.q fun j => (m j : ℤ)) = fun i : Fin (2 ^ l) => res p N (pt.getD i 0) := by
    rw [← (hasCoeffs_iff g hp tb (hv.rep (p := p))).mp hpt]
    show ntt psi l (modq N fun j => (m j : ℤ)) = _
    congr 1
    funext i
    show (((m i : ℕ) : ℤ) : ZMod N) = _
    rw [Int.cast_natCast]
  have up : ∀ u : ℕ, u ≤ V → 6 * √u * √(2 ^ l : ℕ) ≤ 6 * √((V : ℤ) : ℝ) * √(2 ^ l : ℕ) := by
    intro u hu
    have : √(u : ℝ) ≤ √((V : ℤ) : ℝ) := Real.sqrt_le_sqrt (by push_cast; exact_mod_cast hu)
    gcongr
  obtain ⟨Y, y1, y2⟩ := c65_encrypt_public_partial (C := C) hC.ok P (by rw [hPt]; exact hT64) K
    (by rw [a5, hPt]) S a2 vk V prng a (fun j => (m j : ℤ)) E Vv E0 E1 c2
    ⟨by omega, by
      by_contra hgt
      rw [c38_rejects _ _ _ _ _ (by omega)] at g1
      cases g1⟩ hsize (by
      intro f hf
      simp only [List.mem_cons, List.not_mem_nil, or_false] at hf
      rcases hf with rfl | rfl | rfl | rfl | rfl
      · exact zS.mono (up _ h1V)
      · exact zE.mono (up _ h2V)
      · exact zV.mono (up _ le_rfl)
      · exact zE0.mono (up _ le_rfl)
      · exact zE1.mono (up _ le_rfl))
  rw [hmm] at y1
  rw [y1] at i5
  obtain rfl := Outcome.ok.inj i5
  have hpow : Y.ct.power = 1 := by
    unfold ErrorTrack.encryptPublic at y1
    obtain ⟨c, hc, y1⟩ := Outcome.bind_eq_ok.mp y1
    obtain ⟨b', -, y1⟩ := Outcome.bind_eq_ok.mp y1
    cases y1
    unfold Pub.encrypt at hc
    split_ifs at hc
    rw [← Outcome.ok.inj hc]
  have hn' := y2.noisy
  rw [hpow, show (1 : ℤ).toNat = 1 from rfl, subst_id hC.ok.l32] at hn'
  have herr : x.error = b := by
    rw [i6.error]
    unfold ErrorTrack.encryptPublic at y1
    obtain ⟨_, -, y1⟩ := Outcome.bind_eq_ok.mp y1
    obtain ⟨b', hb', y1⟩ := Outcome.bind_eq_ok.mp y1
    cases y1
    have : P.bPublicKey (2 ^ l) V = .ok b' := hb'
    rw [hb1] at this
    exact (Outcome.ok.inj this).symm
  have hsz := y2.size
  rw [← i6.error] at hsz
  rw [herr] at hsz ⊢
  rw [hPt] at hsz hn'
  exact estimate_holds g hp tb k k1 k2 s2 (by rw [k3]; exact k8) hT.le ⟨x.c, x.power, 0⟩ i6.c m hm
    (fun i => negMul E Vv i + E0 i + negMul E1 S i) (by have h6 := hn'; rw [a2] at h6; exact h6) hsz hb2

/-! ## Computations -/

/-- A program on words whose inputs have noisy plaintexts of the size of their estimates: so has the result. -/
theorem program_estimated (hC : Fit C p) (P : ErrorParams) (S : C.Poly) {x : ℕ → Obj ℝ} {φ g : ℕ → Fin C.n → ℤ}
    {f : ℕ → List ℕ} {r : ℕ} (hx : ∀ i < r, ∃ X, Carries C p (x i) X ∧ Noisy S X.ct (φ i) ∧ X.ct.power = 1 ∧ X.ct.c ≠ [] ∧
      SizeAtMost (φ i) X.error)
    (hf : ∀ j, Poly.Rep p C.q C.n (f j) (C.toNtt (modq C.q (g j))))
    (hg : ∀ j, SizeAtMost (g j) (P.bPlaintext C.n)) (u : Program) (hu : u.Within r C.q) :
    ∃ y Y, u.run p (P.bPlaintext C.n) x f = .ok y ∧ Carries C p y Y ∧ Noisy S Y.ct (u.eval φ g) ∧ Y.ct.power = 1 ∧
      Y.ct.c ≠ [] ∧ SizeAtMost (u.eval φ g) Y.error := by
  have value_ok : ∀ {r : Rns.Res (Obj ℝ)} {Y : Tracked C}, Agrees C p r (.ok Y) →
      ∃ y, r.value = .ok y ∧ Carries C p y Y := by
    intro r Y h
    obtain ⟨h1, h2⟩ := h
    exact ⟨r.1, by unfold Rns.Res.value; rw [h1], h2⟩
  induction u with
  | input i =>
    obtain ⟨X, h1, h2, h3, h4, h5⟩ := hx i hu
    exact ⟨x i, X, rfl, h1, h2, h3, h4, h5⟩
  | add u v ihu ihv =>
    obtain ⟨a, A, a1, a2, a3, a4, a5, a6⟩ := ihu hu.1
    obtain ⟨b, B, b1, b2, b3, b4, b5, b6⟩ := ihv hu.2
    obtain ⟨r, r1, r2, r3, r4⟩ := (c20_add S A.ct B.ct a3 b3).2 (by rw [a4, b4])
    have h := add_agrees hC a2 b2
    unfold ErrorTrack.add at h
    rw [r1, Outcome.bind_ok] at h
    obtain ⟨y, y1, y2⟩ := value_ok h
    refine ⟨y, _, ?_, y2, r2, by rw [r3, a4], ?_, a6.add b6⟩
    · show (do ((Call.add (← v.run p _ x f)).run p _ (← u.run p _ x f)).value) = _
      rw [b1, Outcome.bind_ok, a1, Outcome.bind_ok]
      exact y1
    · have := List.length_pos_iff.mpr a5
      exact List.length_pos_iff.mp (by rw [r4]; omega)
  | sub u v ihu ihv =>
    obtain ⟨a, A, a1, a2, a3, a4, a5, a6⟩ := ihu hu.1
    obtain ⟨b, B, b1, b2, b3, b4, b5, b6⟩ := ihv hu.2
    obtain ⟨r, r1, r2, r3, r4⟩ := (c20_sub S A.ct B.ct a3 b3).2 (by rw [a4, b4])
    have h := sub_agrees hC a2 b2
    unfold ErrorTrack.sub at h
    rw [r1, Outcome.bind_ok] at h
    obtain ⟨y, y1, y2⟩ := value_ok h
    refine ⟨y, _, ?_, y2, r2, by rw [r3, a4], ?_, a6.sub b6⟩
    · show (do ((Call.sub (← v.run p _ x f)).run p _ (← u.run p _ x f)).value) = _
      rw [b1, Outcome.bind_ok, a1, Outcome.bind_ok]
      exact y1
    · have := List.length_pos_iff.mpr a5
      exact List.length_pos_iff.mp (by rw [r4]; omega)
  | mul u v ihu ihv =>
    obtain ⟨a, A, a1, a2, a3, a4, a5, a6⟩ := ihu hu.1
    obtain ⟨b, B, b1, b2, b3, b4, b5, b6⟩ := ihv hu.2
    obtain ⟨r, r1, r2, r3, r4⟩ := (c21_mul hC.ok S A.ct B.ct a3 b3).2 (by rw [a4, b4]) a5 b5
    have h := mul_agrees hC a2 b2
    unfold ErrorTrack.mul at h
    rw [r1, Outcome.bind_ok] at h
    obtain ⟨y, y1, y2⟩ := h
    refine ⟨y, _, ?_, y2, r2, by rw [r3, a4], ?_, a6.mul b6⟩
    · show (do WordCt.mul p (← u.run p _ x f) (← v.run p _ x f)) = _
      rw [a1, Outcome.bind_ok, b1, Outcome.bind_ok]
      exact y1
    · have := List.length_pos_iff.mpr a5
      have := List.length_pos_iff.mpr b5
      exact List.length_pos_iff.mp (by rw [r4]; omega)
  | absorb u j ihu =>
    obtain ⟨a, A, a1, a2, a3, a4, a5, a6⟩ := ihu hu
    obtain ⟨r2, r3⟩ := (c21_absorb hC.ok S A.ct a3).1 (g j)
    obtain ⟨y, y1, y2⟩ := value_ok (absorb_agrees (P := P) hC a2 (hf j))
    refine ⟨y, _, ?_, y2, r2, by rw [← a4]; exact r3, ?_, a6.mul (hg j)⟩
    · show (do ((Call.absorb (f j)).run p _ (← u.run p _ x f)).value) = _
      rw [a1, Outcome.bind_ok]
      exact y1
    · show A.ct.c.map _ ≠ []
      simpa using a5
  | scale u c ihu =>
    obtain ⟨a, A, a1, a2, a3, a4, a5, a6⟩ := ihu hu.1
    obtain ⟨r2, r3⟩ := (c21_absorb hC.ok S A.ct a3).2 (c : ℤ)
    have hcw : c < 2 ^ C.w := by have := hu.2; have := hC.good.lt; omega
    have hlt : Mont.importInt p c < C.q := importInt_lt hC.good _ hcw
    have hcast : ((Mont.exportInt p (Mont.importInt p c) : ℕ) : ZMod C.q) = ((c : ℤ) : ZMod C.q) := by
      have e1 : ((Mont.exportInt p (Mont.importInt p c) : ℕ) : ZMod C.q) = res p C.q (Mont.importInt p c) :=
        res_export hC.good hlt.le
      rw [e1, res_import hC.good hcw]
      push_cast
      rfl
    have h := absorbScalar_agrees hC a2 hlt.le
    rw [hcast] at h
    obtain ⟨y, y1, y2⟩ := value_ok h
    refine ⟨y, _, ?_, y2, r2, by rw [← a4]; exact r3, ?_, ?_⟩
    · show (do ((Call.absorbScalar (Mont.importInt p c)).run p _ (← u.run p _ x f)).value) = _
      rw [a1, Outcome.bind_ok]
      exact y1
    · show A.ct.c.map _ ≠ []
      simpa using a5
    · have := a6.smul (c : ℤ)
      refine this.mono (le_of_eq ?_)
      show |((c : ℤ) : ℝ)| * A.error = A.error * (((c : ℤ) : ZMod C.q).val : ℕ)
      rw [Int.cast_natCast, Int.cast_natCast, ZMod.val_natCast_of_lt hu.2, abs_of_nonneg (Nat.cast_nonneg _), mul_comm]

/-- The samples of successive encryptions. -/
def manyTree {α : Type} (A : Tree α) (v n : ℕ) : ℕ → Tree (List (List (List (ℕ × ℕ))))
  | 0 => .ret (.ok [])
  | r + 1 => A.bind fun _ => ((coeffTree v).times n).bind fun pss => (manyTree A v n r).bind fun rest => .ret (.ok (pss :: rest))

open Classical in
theorem many_tail {α : Type} (A : Tree α) {v n : ℕ} (hv : 0 < v) (hn : n ≠ 0) (he : Even n) (r : ℕ) :
    (manyTree A v n r).expect (fun psss => if ∃ pss ∈ psss, ¬ SizeAtMost (fun i : Fin n => coeffOf v (pss.getD i []))
      (6 * √v * √n) then (1 : ℝ) else 0) ≤ r * (8 * n * exp (-30)) := by
  set bad : List (List (ℕ × ℕ)) → Prop := fun pss =>
    ¬ SizeAtMost (fun i : Fin n => coeffOf v (pss.getD i [])) (6 * √v * √n) with hbad
  have hone : ((coeffTree v).times n).expect (fun a => if bad a then 1 else 0) ≤ 8 * n * exp (-30) := poly_tail hv hn he
  have hε : (0 : ℝ) ≤ 8 * n * exp (-30) := by positivity
  induction r with
  | zero => simp [manyTree, Tree.expect]
  | succ r ih =>
    unfold manyTree
    rw [Tree.expect_bind]
    simp only [Tree.expect_bind]
    refine Tree.expect_le _ (by positivity) fun _ => ?_
    have hstep : ∀ pss, ((manyTree A v n r).expect fun rest => Tree.expect (fun psss => if ∃ q ∈ psss, bad q then (1 : ℝ) else 0)
        (.ret (.ok (pss :: rest)))) ≤ (if bad pss then 1 else 0) + r * (8 * n * exp (-30)) := by
      intro pss
      refine (Tree.expect_mono (ψ := fun rest => (if bad pss then (1 : ℝ) else 0) + if ∃ q ∈ rest, bad q then (1 : ℝ) else 0)
        _ fun rest => ?_).trans ?_
      · show (if ∃ q ∈ pss :: rest, bad q then (1 : ℝ) else 0) ≤ _
        have aux : ∀ P Q R : Prop, [Decidable P] → [Decidable Q] → [Decidable R] → (R → P ∨ Q) →
            (if R then (1 : ℝ) else 0) ≤ (if P then 1 else 0) + if Q then 1 else 0 := by
          intro P Q R _ _ _ hR
          by_cases h1 : P <;> by_cases h2 : Q <;> by_cases h3 : R <;> simp_all
        refine aux _ _ _ ?_
        rintro ⟨q, hq, hb⟩
        rcases List.mem_cons.mp hq with rfl | hq
        · exact Or.inl hb
        · exact Or.inr ⟨q, hq, hb⟩
      · rw [Tree.expect_add]
        have := (manyTree A v n r).expect_const_le (c := if bad pss then (1 : ℝ) else 0) (by split_ifs <;> norm_num)
        linarith
    refine (Tree.expect_mono _ hstep).trans ?_
    rw [Tree.expect_add]
    have := ((coeffTree v).times n).expect_const_le (c := r * (8 * n * exp (-30))) (by positivity)
    push_cast
    linarith

/-- Successive encryptions, and the tape they read. -/
theorem encryptAll_tape {w N : ℕ} (h : create w N = .ok p) (hp : N.Prime) {l : ℕ} {psi : ZMod N}
    (tb : Tables p w N l psi q) (k : Word.Key) (k1 : k.p = p) (k2 : k.q = q) (k6 : ValidPoly N (2 ^ l) k.key)
    (hN : 4 * k.variance < N) (k7 : k.tMod < N) {T : ℕ} (k8 : Mont.exportInt p k.tMod = T) {A : Tree (List ℕ)} {fuel : ℕ}
    (hA : A.Is (Sampler.samplePolynomial bytesSource p fuel ((2 ^ l : ℕ) : ℤ))) (bits : ℕ) (pts : List (List ℕ))
    (m : ℕ → Fin (2 ^ l) → ℕ) (hpt : ∀ i < pts.length, ValidPoly N (2 ^ l) (pts.getD i []))
    (hpt' : ∀ i < pts.length, HasCoeffs p q N (2 ^ l) (pts.getD i []) fun j => (m i j : ZMod N))
    {t s : List (Fin 256)} {xs : List Word.Ct} (hx : encryptAll bytesSource fuel k bits pts t = .ok (xs, s)) :
    ∃ psss, (manyTree A k.variance (2 ^ l) pts.length).run t = .ok (psss, s) ∧ psss.length = pts.length ∧
      ∀ i < pts.length, ∃ X : List (Fin (2 ^ l) → ZMod N),
        List.Forall₂ (Poly.Rep p N (2 ^ l)) (xs.getD i ⟨[], 0, 0⟩).c X ∧ X ≠ [] ∧ (xs.getD i ⟨[], 0, 0⟩).power = 1 ∧
        ntt psi l (modq N fun j => (m i j : ℤ) + T * coeffOf k.variance ((psss.getD i []).getD j [])) =
          phase (fun j : Fin (2 ^ l) => res p N (k.key.getD j 0)) X := by
  have g := good_of_create h
  induction pts generalizing m t xs with
  | nil =>
    cases hx
    exact ⟨[], rfl, rfl, by simp⟩
  | cons pt pts ih =>
    unfold encryptAll at hx
    obtain ⟨⟨x, t'⟩, hx1, hx⟩ := Outcome.bind_eq_ok.mp hx
    obtain ⟨⟨xs', s'⟩, hx2, hx⟩ := Outcome.bind_eq_ok.mp hx
    cases hx
    obtain ⟨X, e, e1, e2, e3, e4, e5, a, t₁, cs, d1, d2, d3⟩ :=
      fresh_drawn bytesSource bytesSource_words h hp tb k k1 k2 k6 (by omega) k7 k8 (m 0) (hpt 0 (by simp))
        (hpt' 0 (by simp)) hx1
    obtain ⟨pss, r1, r2⟩ := sampleError_tape h hN d2
    rw [signed_rep g d3 fun i => by have := e4 i; omega] at r2
    obtain ⟨rest, b1, b2, b3⟩ := ih (fun i => m (i + 1)) (fun i hi => by simpa using hpt (i + 1) (by simpa using hi))
      (fun i hi => by simpa using hpt' (i + 1) (by simpa using hi)) hx2
    refine ⟨pss :: rest, ?_, by simp [b2], ?_⟩
    · show (Tree.bind _ A).run t = _
      rw [Tree.run_bind, ← hA t, d1, Outcome.bind_ok, Tree.run_bind]
      show (Tree.run _ t₁ >>= _) = _
      rw [r1, Outcome.bind_ok, Tree.run_bind]
      show (Tree.run _ t' >>= _) = _
      rw [b1, Outcome.bind_ok]
      rfl
    · intro i hi
      cases i with
      | zero =>
        refine ⟨X, e1, e2, e3, ?_⟩
        rw [r2] at e5
        exact e5
      | succ i => exact b3 i (by simpa using hi)

open Classical in
/-- C83: for uniformly distributed bytes, every secret key and every list of plaintexts of the size the estimates assume,
encrypted one after the other: the probability that there is a program of additions, subtractions, products, products
with plaintext polynomials of that size and with constants below the modulus, which fails, or returns a ciphertext with
twice its `Error()` below the modulus that does not decrypt to the program evaluated on the messages. -/
theorem c83_program {w N : ℕ} (h : create w N = .ok p) (hw : w ≤ 128) (hp : N.Prime) {l : ℕ} (hq : initNtt p l = .ok q)
    (G : Gen σ) {variance logT : ℕ} {s s' : σ} {k : Word.Key}
    (hk : Word.Key.sample G p q l variance logT s = .ok (k, s')) (hT : 2 ^ logT + 1 < N) (hT64 : 2 ^ logT + 1 < 2 ^ 64)
    (hvar : 0 < variance) (hN : 4 * variance < N) {P : ErrorParams} (hPt : P.t = 2 ^ logT + 1)
    (hPv : P.variance = variance) {pts : List (List ℕ)} (m : ℕ → Fin (2 ^ l) → ℕ)
    (hsize : ∀ i < pts.length, SizeAtMost (fun j => (m i j : ℤ)) (P.bPlaintext (2 ^ l)))
    (hpt : ∀ i < pts.length, ValidPoly N (2 ^ l) (pts.getD i []))
    (hpt' : ∀ i < pts.length, HasCoeffs p q N (2 ^ l) (pts.getD i []) fun j => (m i j : ZMod N))
    (g : ℕ → Fin (2 ^ l) → ℤ) (hg : ∀ j, SizeAtMost (g j) (P.bPlaintext (2 ^ l))) {f : ℕ → List ℕ}
    (hf : ∀ i, ValidPoly N (2 ^ l) (f i)) (hf' : ∀ i, HasCoeffs p q N (2 ^ l) (f i) fun j => (g i j : ZMod N))
    (fuel bits L : ℕ) :
    bytesProbability L (fun t => ∃ xs s, encryptAll bytesSource fuel k bits pts t = .ok (xs, s) ∧
      ∃ u : Program, u.Within pts.length N ∧ ¬ ∃ y, u.run p (P.bPlaintext (2 ^ l))
          (fun i => ⟨(xs.getD i ⟨[], 0, 0⟩).c, (xs.getD i ⟨[], 0, 0⟩).power, P.bEncryption (2 ^ l), []⟩) f = .ok y ∧
        (2 * y.error < N → Word.decrypt k ⟨y.c, y.power, 0⟩ =
          .ok (List.ofFn fun j => (u.eval (fun i j => (m i j : ℤ)) g j % (2 ^ logT + 1)).toNat))) ≤
      pts.length * (8 * 2 ^ l * exp (-30)) := by
  have gd := good_of_create h
  haveI : NeZero N := ⟨hp.ne_zero⟩
  obtain ⟨k1, k2, k3, k4, k5, k6, k7, k8⟩ := sample_word G h hp hq hk hT
  obtain ⟨psi, hC, tb⟩ := fit_of_create h hw hp hq
  obtain ⟨A, hA⟩ := pad_reads p fuel ((2 ^ l : ℕ) : ℤ)
  have hn : 2 ^ l ≠ 0 := by positivity
  haveI : NeZero (2 ^ l) := ⟨hn⟩
  have he : Even (2 ^ l) := (Nat.even_pow.mpr ⟨even_two, by have := tb.l1; omega⟩)
  have htail := many_tail A hvar hn he pts.length
  push_cast at htail
  refine (bytesProbability_le (manyTree A variance (2 ^ l) pts.length) ?_ L).trans htail
  rintro t ⟨xs, s, hx, u, hu, hbad⟩
  obtain ⟨psss, b1, b2, b3⟩ := encryptAll_tape h hp tb k k1 k2 k6 (by rw [k4]; exact hN) k7 k8 hA bits pts m hpt hpt' hx
  rw [k4] at b1
  refine ⟨psss, s, b1, ?_⟩
  by_contra hgood
  push Not at hgood
  apply hbad
  choose X e1 e2 e3 e5 using b3
  rw [k4] at e5
  let C : Ctx := ⟨w, N, l, psi⟩
  let φ : ℕ → Fin (2 ^ l) → ℤ := fun i j =>
    (m i j : ℤ) + ((2 ^ logT + 1 : ℕ) : ℤ) * coeffOf variance ((psss.getD i []).getD j [])
  obtain ⟨y, Y, y1, y2, y3, y4, y5, y6⟩ := program_estimated (C := C) hC P (fun i => res p N (k.key.getD i 0))
    (x := fun i => ⟨(xs.getD i ⟨[], 0, 0⟩).c, (xs.getD i ⟨[], 0, 0⟩).power, P.bEncryption (2 ^ l), []⟩)
    (φ := φ) (g := g) (f := f) (r := pts.length)
    (fun i hi => ⟨⟨⟨X i hi, 1, []⟩, P.bEncryption (2 ^ l)⟩, ⟨e1 i hi, e3 i hi, rfl, .nil⟩, e5 i hi, rfl, e2 i hi, by
      have hmem : psss.getD i [] ∈ psss := by
        rw [List.getD_eq_getElem _ _ (by omega)]
        exact List.getElem_mem _
      have hsz := hgood _ hmem
      refine ((hsize i hi).add (hsz.smul ((2 ^ logT + 1 : ℕ) : ℤ))).mono (le_of_eq ?_)
      show _ = P.bEncryption (2 ^ l)
      unfold ErrorTrack.ErrorParams.bPlaintext ErrorTrack.ErrorParams.bEncryption ErrorTrack.ErrorParams.exportT
        ErrorTrack.ErrorParams.sigma
      rw [hPt, hPv, Nat.mod_eq_of_lt hT64, sqrt_three_mul, Int.cast_natCast, abs_of_nonneg (Nat.cast_nonneg _)]
      push_cast
      ring⟩)
    (fun j => by
      have := (hf j).rep (p := p)
      have h2 := (hasCoeffs_iff gd hp tb this).mp (hf' j)
      show Poly.Rep p N (2 ^ l) (f j) (ntt psi l (modq N (g j)))
      have h3 : modq N (g j) = fun i => (g j i : ZMod N) := rfl
      rw [h3, h2]
      exact this) hg u hu
  refine ⟨y, y1, fun hfit => ?_⟩
  rw [y2.error] at hfit
  rw [Word.decrypt_word gd hp tb k k1 k2 (k6.rep (p := p)) (T := 2 ^ logT + 1) (by rw [k3, k8]) (Nat.succ_pos _) hT.le
    ⟨y.c, y.power, 0⟩ y2.c]
  congr 2
  funext j
  have hph : ntt psi l (modq N (u.eval φ g)) = phase (fun i : Fin (2 ^ l) => res p N (k.key.getD i 0)) Y.ct.c := y3
  rw [← hph, intt_ntt hp gd.odd tb.root (by have := tb.l15; omega)]
  have hsm : 2 * |u.eval φ g j| < N := by
    have h1 := coeff_le_size y6 j
    have h2 : (2 : ℝ) * |((u.eval φ g j : ℤ) : ℝ)| < N := by
      refine lt_of_le_of_lt ?_ hfit
      exact mul_le_mul_of_nonneg_left h1 (by norm_num)
    exact_mod_cast h2
  have hmod := congrFun (Program.eval_modq (t := 2 ^ logT + 1) (φ := φ) (m := fun i j => (m i j : ℤ)) (g := g) (fun i => by
      funext j
      show (((m i j : ℤ) + ((2 ^ logT + 1 : ℕ) : ℤ) * coeffOf variance ((psss.getD i []).getD j []) : ℤ) :
        ZMod (2 ^ logT + 1)) = ((m i j : ℤ) : ZMod (2 ^ logT + 1))
      rw [Int.cast_add, Int.cast_mul, Int.cast_natCast (2 ^ logT + 1), ZMod.natCast_self, zero_mul, add_zero]) u) j
  show (centered N ((u.eval φ g j : ℤ) : ZMod N) % ((2 ^ logT + 1 : ℕ) : ℤ)).toNat = _
  have h3 := le_abs_self (u.eval φ g j)
  have h4 := neg_abs_le (u.eval φ g j)
  rw [centered_eq N _ (by omega) (by omega)]
  rw [(ZMod.intCast_eq_intCast_iff' _ _ _).mp hmod]
  norm_cast

/-- The conditions of `c83_secret` and `c83_public` on the plaintext `2 + X` and the modulus, for `t = 5`, variance 8 and
degree 2. -/
example : SizeAtMost (fun i => ((![2, 1] : Fin (2 ^ 1) → ℕ) i : ℤ)) (ErrorParams.bPlaintext ⟨5, 8, 24⟩ (2 ^ 1)) ∧
    2 * ErrorParams.bEncryption ⟨5, 8, 24⟩ (2 ^ 1) < (16777153 : ℕ) ∧
    ∃ b, ErrorParams.bPublicKey ⟨5, 8, 24⟩ (2 ^ 1) (8 : ℕ) = .ok b ∧ 2 * b < (16777153 : ℕ) := by
  have h2 : √((2 ^ 1 : ℕ) : ℝ) ≤ 2 := Real.sqrt_le_iff.mpr ⟨by norm_num, by norm_num⟩
  have h3 : √(3 : ℝ) ≤ 2 := Real.sqrt_le_iff.mpr ⟨by norm_num, by norm_num⟩
  have h8 : √((8 : ℕ) : ℝ) ≤ 3 := Real.sqrt_le_iff.mpr ⟨by norm_num, by norm_num⟩
  have h8' : √(((8 : ℕ) : ℤ) : ℝ) ≤ 3 := Real.sqrt_le_iff.mpr ⟨by norm_num, by norm_num⟩
  have p2 := Real.sqrt_nonneg ((2 ^ 1 : ℕ) : ℝ)
  have p3 := Real.sqrt_nonneg (3 : ℝ)
  have p8 := Real.sqrt_nonneg ((8 : ℕ) : ℝ)
  have p8' := Real.sqrt_nonneg (((8 : ℕ) : ℤ) : ℝ)
  refine ⟨exParams_plaintext (fun i => ((![2, 1] : Fin 2 → ℕ) i : ℤ)) (by decide), ?_, _, rfl, ?_⟩
  · unfold ErrorParams.bEncryption ErrorParams.exportT ErrorParams.sigma
    dsimp only
    rw [show ((5 % 2 ^ 64 : ℕ) : ℝ) = 5 by norm_num]
    have : 5 * √((2 ^ 1 : ℕ) : ℝ) * (√3 + 6 * √((8 : ℕ) : ℝ)) ≤ 5 * 2 * (2 + 6 * 3) := by gcongr
    norm_num at this ⊢
    linarith
  · unfold ErrorParams.exportT
    dsimp only
    rw [show ((5 % 2 ^ 64 : ℕ) : ℝ) = 5 by norm_num]
    have : √((2 ^ 1 : ℕ) : ℝ) * (6 * √(((8 : ℕ) : ℤ) : ℝ) + √3) ≤ 2 * (6 * 3 + 2) := by gcongr
    norm_num at this ⊢
    linarith

/-- The other conditions hold as well: on these tapes a secret key is sampled, a public key created, and `2 + X`
encrypted under both; the ciphertexts decrypt. -/
example : (do
    let p ← create 32 16777153
    let q ← initNtt p 1
    let (k, _) ← Word.Key.sample bytesSource p q 1 8 2 [17, 200, 3, 91, 250, 4, 66, 129]
    let pk ← Word.PKey.create tapeRng 8 k 8 .hkdf [8, 1, 2, 3, 4, 5, 6, 7, 9, 10, 11, 12, 13, 14, 15, 16]
      ([255, 3, 1, 4, 1, 5, 9, 2] : List ℕ)
    let m ← Poly.convertToNtt p q ([2, 1].map (Mont.importInt p))
    let (x, _) ← pk.encrypt bytesSource m 8 (fun _ _ => .ok (0 : ℚ)) (some
      [1, 2, 3, 4, 5, 6, 7, 8, 90, 91, 92, 93, 94, 95, 96, 97, 200, 201, 202, 203, 204, 205, 206, 207])
    let (y, _) ← Word.encrypt bytesSource 8 k m 0 [1, 2, 3, 4, 5, 6, 7, 8, 9, 8, 7, 6, 5, 4, 3, 2, 90, 91, 92, 93, 94,
      95, 96, 97]
    .ok (← Word.decrypt k ⟨x.c, x.power, 0⟩, ← Word.decrypt k y)) = .ok ([2, 1], [2, 1]) := by
  decide +kernel

end Shell
