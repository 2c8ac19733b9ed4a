import Verif.Spec.StoreKeys
import Verif.Lemmas.StorePlain
import Verif.Props.WordSwitch
/-!
Key switching in programs: every call simulates the call of the machine for some noise of bounded size.
-/

namespace Shell.Store
open Rns Rns.Res Spec ErrorTrack Sym WordCt NttRing MParams Ntt Expand

/-! ### The machine respects congruence -/

section
variable {n t : ℕ}

theorem keyed_cong (σ : Fin n → ℤ) (P : ErrorParams) (N t' : ℕ) (keys : List KeyShape) (e : Fin n → ℤ)
    {M M' : IdealMem n} (hM : Cong t M M') (c : IdealKeyed n) :
    ExRel (Cong t) (c.ideal σ P N t' keys 0 M) (c.ideal σ P N t keys e M') := by
  have app : ∀ {Y Y' : IdealCt n}, CongCt t Y Y' →
      Cong t { M with cts := M.cts ++ [Y] } { M' with cts := M'.cts ++ [Y'] } := fun h =>
    cong_ct hM (forall₂_append hM.cts (.cons h .nil))
  have hv : ∀ {Y Y' : IdealCt n}, CongCt t Y Y' → modq t (fun j => Y.value j + t' * (0 : Fin n → ℤ) j) =
      modq t fun j => Y'.value j + t * e j := by
    intro Y Y' h
    funext j
    have := congrFun h.value j
    simp only [modq] at this ⊢
    simp [this]
  cases c with
  | plain c => exact call_cong σ _ N hM c
  | relinearize a r =>
    refine (object_cong hM.cts a).bind fun Y Y' hY => (ExRel.refl (object keys r)).bind fun K K' hK => ?_
    subst hK
    refine ite_cong (by rw [hY.size]) (fun _ => rfl) fun _ => app ⟨rfl, rfl, hv hY, ?_, rfl, rfl⟩
    show Y.error + _ = Y'.error + _
    rw [hY.error]
  | galois a r =>
    refine (object_cong hM.cts a).bind fun Y Y' hY => (ExRel.refl (object keys r)).bind fun K K' hK => ?_
    subst hK
    refine ite_cong (by rw [hY.size, hY.power]) (fun _ => rfl) fun _ => app ⟨rfl, rfl, hv hY, ?_, rfl, rfl⟩
    show Y.error + _ = Y'.error + _
    rw [hY.error]

theorem keyedProper_cong {w : ℕ} {keys : List KeyShape} {M M' : IdealMem n} (hM : Cong t M M') {c : IdealKeyed n}
    (h : c.Proper w keys M) : c.Proper w keys M' := by
  cases c with
  | plain c => exact proper_cong hM h
  | relinearize a r =>
    obtain ⟨X, K, h1, h2, h3⟩ := h
    obtain ⟨X', h4, h5⟩ := object_some hM.cts h1
    exact ⟨X', K, h4, h2, by rw [← h5.size, ← h5.power]; exact h3⟩
  | galois a r => exact ⟨by rw [← hM.cts.length_eq]; exact h.1, h.2⟩

/-- A run without noise and one with noise return the same and end with congruent objects. -/
theorem keyedRun_cong (σ : Fin n → ℤ) (P : ErrorParams) (N : ℕ) (keys : List KeyShape) :
    ∀ {cs : List (IdealKeyed n)} {M M' : IdealMem n} (e : ℕ → Fin n → ℤ), Cong t M M' →
    (keyedRun σ P N t keys 0 M cs).1 = (keyedRun σ P N t keys e M' cs).1 ∧
    Cong t (keyedRun σ P N t keys 0 M cs).2 (keyedRun σ P N t keys e M' cs).2
  | [], M, M', e, h => ⟨rfl, h⟩
  | c :: cs, M, M', e, h => by
    have key := keyed_cong σ P N t keys (e 0) h c
    simp only [keyedRun, Pi.zero_apply]
    generalize c.ideal σ P N t keys 0 M = x at key
    generalize c.ideal σ P N t keys (e 0) M' = y at key
    cases x with
    | ok K =>
      cases y with
      | error e => exact key.elim
      | ok K' =>
        obtain ⟨i1, i2⟩ := keyedRun_cong σ P N keys (fun i => e (i + 1)) key (cs := cs)
        exact ⟨congrArg₂ List.cons rfl i1, i2⟩
    | error s =>
      cases y with
      | ok K => exact key.elim
      | error s' =>
        obtain rfl : s = s' := key
        obtain ⟨i1, i2⟩ := keyedRun_cong σ P N keys (fun i => e (i + 1)) h (cs := cs)
        exact ⟨congrArg₂ List.cons rfl i1, i2⟩

end

/-! ### One key switching -/

theorem createParts_length {C : Ctx} (k : Sym.Key C) (base : C.Poly) (T : ZMod C.q) (dim : ℕ) (pads errs : ℕ → ℕ → C.Poly) :
    ∀ (cnt i j : ℕ) (kp : C.Poly) {L : List (Relin.Part C)}, Relin.createParts k base T dim pads errs cnt i j kp = .ok L →
      L.length = cnt
  | 0, i, j, kp, L, h => by cases h; rfl
  | cnt + 1, i, j, kp, L, h => by
    simp only [Relin.createParts, Outcome.bind_eq_ok, Outcome.pure_eq] at h
    obtain ⟨part, _, rest, h2, h3⟩ := h
    cases h3
    rw [List.length_cons, createParts_length k base T dim pads errs cnt _ _ _ h2]

theorem create_length {C : Ctx} {k : Sym.Key C} {prng : PrngType} {numParts : ℤ} {b : ℕ} {pw : ℤ}
    {pads errs : ℕ → ℕ → C.Poly} {rk : Relin.RKey C}
    (h : Relin.create k prng numParts b pw pads errs = .ok rk) :
    rk.parts.length = (numParts - Relin.firstKeyIndex pw).toNat := by
  unfold Relin.create at h
  obtain ⟨_, h⟩ | ⟨_, h⟩ := ite_eq_iff.mp h
  · cases h
  obtain ⟨_, h⟩ | ⟨_, h⟩ := ite_eq_iff.mp h
  · cases h
  obtain ⟨_, h⟩ | ⟨_, h⟩ := ite_eq_iff.mp h
  · cases h
  simp only [Outcome.bind_eq_ok] at h
  obtain ⟨_, _, _, _, h⟩ := h
  obtain ⟨_, h⟩ | ⟨_, h⟩ := ite_eq_iff.mp h
  · cases h
  simp only [Outcome.bind_eq_ok, Outcome.pure_eq] at h
  obtain ⟨_, _, L, hL, h⟩ := h
  cases h
  exact createParts_length _ _ _ _ _ _ _ _ _ _ hL

theorem applyTo_lazy {C : Ctx} {rk : Relin.RKey C} {x r : Ct C} (h : rk.applyTo x = .ok r) : r.lazy = [] := by
  unfold Relin.RKey.applyTo at h
  obtain ⟨_, h⟩ | ⟨_, h⟩ := ite_eq_iff.mp h
  · cases h
  simp only [Outcome.bind_eq_ok] at h
  obtain ⟨_, _, _, _, _, _, _, _, _, _, h⟩ := h
  obtain ⟨_, h⟩ | ⟨_, h⟩ := ite_eq_iff.mp h
  · simp only [Outcome.bind_eq_ok, Outcome.pure_eq] at h
    obtain ⟨_, _, _, _, h⟩ := h
    cases h; rfl
  · simp only [Outcome.bind_eq_ok, Outcome.pure_eq] at h
    obtain ⟨_, _, h⟩ := h
    cases h; rfl

variable {C : Ctx} {p : MParams} {q : Ntt.NttParams} {ρ : Type}

/-- The words `rk` are the key `K` for the secret `σ`: applied to a ciphertext it does what the machine does. -/
structure KRel (C : Ctx) (p : MParams) (q : Ntt.NttParams) (σ : Fin C.n → ℤ) (P : ErrorParams) (t A : ℕ)
    (rk : Word.RKey) (K : KeyShape) : Prop where
  power : rk.power = K.power
  reject : ∀ x X, CRel C p σ x X → X.size ≠ K.numParts →
    WordCt.relinearize rk (P.bRelinearize C.n) x = .err .invalidArgument
  apply : ∀ x X, CRel C p σ x X → X.size = K.numParts → X.power = K.power →
    ∃ (y : Obj ℝ) (e : Fin C.n → ℤ), WordCt.relinearize rk (P.bRelinearize C.n) x = .ok y ∧ (∀ j, |e j| ≤ (A : ℤ)) ∧
      CRel C p σ y ⟨2, 1, fun j => X.value j + t * e j, X.error + K.estimate P C.n, 0, 0⟩

theorem krel_of_made (hC : Fit C p) (ht : Tables p C.w C.q C.l C.psi q) (hw : C.w ≤ 128) (R : Word.Rng ρ)
    (hR : ∀ t, Words (R.gen t)) (hcr : create C.w C.q = .ok p) {k : Word.Key} {K : Sym.Key C}
    (hk : HoldsKey C p q k K) (hv : 2 * k.variance ≤ C.q) {T : ℕ} (hT0 : 0 < T) (htm : plaintextModulus C.w K.logT = .ok T)
    (hT : K.tUnderQ = ((T : ℤ) : ZMod C.q)) {σ : Fin C.n → ℤ} (hσ : C.toNtt (modq C.q σ) = K.key) (P : ErrorParams)
    {fuel : ℕ} {rk : Word.RKey} {S : KeyShape} (h : Made R fuel k rk S) {A : ℕ}
    (hA : S.noise C.n C.logModulus (2 * K.variance) ≤ A) : KRel C p q σ P T A rk S := by
  obtain ⟨hb, prng, seed, seedE, h⟩ := h
  obtain ⟨pads, E, RK, e1, e2, e3⟩ := c74_create hC ht hw R hR hcr hk hv htm h
  obtain ⟨f1, f2, f3⟩ := create_fields e2
  have f4 := create_length e2
  obtain ⟨c1, c2, c3, c4, c5, c6, c7⟩ := (c27_create hC.ok hw K htm _ _ _ _ _ _).mp ⟨RK, e2⟩
  obtain ⟨l1, l2, l3⟩ := ctx_logModulus hC.ok hw
  have hcount : RK.parts.length = S.count := by
    rw [f4]
    unfold Relin.firstKeyIndex KeyShape.count
    split_ifs <;> omega
  have hest : P.bRelinearize C.n RK.parts.length RK.logDecomp = .ok (S.estimate P C.n) := by
    unfold ErrorParams.bRelinearize Relin.decompositionModulus KeyShape.estimate
    rw [if_neg (by omega), f3, if_pos hb, hcount]
    rfl
  have hsec : subst C.l S.power K.key = secret C σ S.power := by
    rw [← hσ]
    show _ = C.toNtt (modq C.q (substPow S.power σ))
    rw [modq_substPow, toNtt_substPow hC.ok _ (by omega)]
  refine ⟨by rw [e3.power, f1], fun x X hx hne => ?_, fun x X hx hs hpw => ?_⟩
  · obtain ⟨Y, y1, y2⟩ := hx
    have ha := c74_relinearize hC ht hcr e3 (by rw [f3]; omega) P y1
    have hr : RK.applyTo Y.ct = .err .invalidArgument := by
      rcases Nat.lt_or_gt_of_ne hne with hlt | hgt
      · exact c27_shorter_rejected hC.ok hw K htm prng _ _ _ pads _ e2 Y.ct (by rw [y2.size]; omega)
      · exact c27_too_long RK Y.ct (by rw [y2.size, f2]; omega)
    unfold ErrorTrack.relinearize at ha
    rw [hr, Outcome.bind_err] at ha
    exact ha
  · obtain ⟨Y, y1, y2⟩ := hx
    obtain ⟨r, d, φ', g1, g2, g3, g4, g5, g6, g7⟩ := c27_noise_partial hC.ok hw K htm hT prng S.numParts S.logBase S.power
      pads E (B := ((2 * K.variance : ℕ) : ℤ)) (by positivity) (fun u j i => by push_cast; exact e1 u j i) e2 hb Y.ct
      (by rw [y2.size, hs]) (φ := X.value) (by
        rw [Int.toNat_natCast, hsec, ← hpw]; exact y2.value)
    have ha := c74_relinearize hC ht hcr e3 (by rw [f3]; omega) P y1
    unfold ErrorTrack.relinearize at ha
    rw [g2, Outcome.bind_ok, hest, Outcome.bind_ok] at ha
    obtain ⟨y, z1, z2⟩ := ha
    have hdvd : ∀ j, (T : ℤ) ∣ φ' j - X.value j := fun j => (Int.ModEq.dvd (g6 j).symm)
    choose e he using hdvd
    have hT0' : (0 : ℤ) < T := by exact_mod_cast hT0
    refine ⟨y, e, z1, fun j => ?_, ⟨_, z2, ?_⟩⟩
    · have h7 := g7 j
      rw [he, abs_mul] at h7
      have h8 := le_of_mul_le_mul_left h7 (abs_pos.mpr hT0'.ne')
      refine h8.trans (le_trans (le_of_eq ?_) (Int.ofNat_le.mpr hA))
      unfold KeyShape.noise switchNoise KeyShape.count
      have hd : d = (C.logModulus + (S.logBase - 1)) / S.logBase := by
        unfold Gadget.gadgetSize at g1
        rw [if_neg (by omega)] at g1
        exact (Outcome.ok.inj g1).symm
      have h2 : ((2 ^ S.logBase - 1 : ℕ) : ℤ) = 2 ^ S.logBase - 1 := by
        rw [Nat.cast_sub Nat.one_le_two_pow]; push_cast; rfl
      have h3 : (if (S.power : ℤ) = 1 then 2 else 1 : ℕ) = if S.power = 1 then 2 else 1 := by
        simp only [Nat.cast_eq_one]
      rw [h3, y2.size, hs, hd, one_mul, Nat.cast_mul (_ * _) (_ * _), Nat.cast_mul (S.numParts - _), Nat.cast_mul (C.n * _),
        Nat.cast_mul C.n, h2]
    · have hφ : (fun j => X.value j + T * e j) = φ' := by
        funext j; have := he j; linarith
      refine ⟨g3, g4, ?_, ?_, ?_, ?_, rfl, ?_⟩
      · show Noisy (secret C σ 1) r _
        rw [hφ]
        show Noisy (C.toNtt (modq C.q (substPow 1 σ))) r φ'
        rw [substPow_one, hσ]
        exact g5
      · show Y.error + _ = X.error + _
        rw [y2.error]
      · show r.lazy.length = 0
        rw [applyTo_lazy g2]; rfl
      · have h0 : modq C.q (0 : Fin C.n → ℤ) = 0 := by funext i; simp [modq]
        show C.toNtt (modq C.q 0) = phase _ r.lazy
        rw [applyTo_lazy g2, phase_nil, h0, toNtt_zero]
      · show 1 < 2 * 2 ^ C.l; have := Nat.one_le_two_pow (n := C.l); omega

/-! ### Programs -/

/-- Every call simulates the call of the machine with some noise. -/
theorem keyed_match (hC : Fit C p) (ht : Tables p C.w C.q C.l C.psi q) (P : ErrorParams) {σ : Fin C.n → ℤ} {t A : ℕ}
    {rks : List Word.RKey} {keys : List KeyShape} (hkeys : List.Forall₂ (KRel C p q σ P t A) rks keys)
    {m : Mem ℝ} {M : IdealMem C.n} (hM : MRel C p σ m M) {c : IdealKeyed C.n} (hc : c.Proper C.w keys M) :
    ∃ e : Fin C.n → ℤ, (∀ j, |e j| ≤ (A : ℤ)) ∧ MatchRes (MRel C p σ) m M
      ((c.call p C.q).run ⟨p, q, P.bPlaintext C.n⟩ (P.bRelinearize C.n) rks m) (c.ideal σ P C.q t keys e M) := by
  have h0 : ∀ j : Fin C.n, |(0 : Fin C.n → ℤ) j| ≤ (A : ℤ) := fun j => by simp
  cases c with
  | plain c => exact ⟨0, h0, call_match hC ht P hM hc⟩
  | relinearize a r =>
    obtain ⟨X, K, h1, h2, h3⟩ := hc
    obtain ⟨x, X', a1, a2, a3, a4⟩ := forall₂_object hM.cts (lt_of_some h1)
    obtain ⟨rk, K', b1, b2, b3, b4⟩ := forall₂_object hkeys (lt_of_some h2)
    rw [object_of h1] at a2
    rw [object_of h2] at b2
    cases a2; cases b2
    simp only [IdealKeyed.call, KeyedCall.run, IdealKeyed.ideal, a1, b1, withTemp_ok, object_of h1, object_of h2,
      except_bind]
    by_cases hs : X.size = K.numParts
    · obtain ⟨y, e, g1, g2, g3⟩ := b4.apply x X a4 hs (h3 hs)
      refine ⟨e, g2, ?_⟩
      rw [if_neg (by simp [hs]), g1]
      exact newCt_match hM g3
    · refine ⟨0, h0, ?_⟩
      rw [if_pos hs, b4.reject x X a4 hs]
      exact ⟨rfl, hM⟩
  | galois a r =>
    obtain ⟨h1, h2⟩ := hc
    obtain ⟨x, X, a1, a2, a3, a4⟩ := forall₂_object hM.cts h1
    obtain ⟨rk, K, b1, b2, b3, b4⟩ := forall₂_object hkeys h2
    simp only [IdealKeyed.call, KeyedCall.run, IdealKeyed.ideal, a1, b1, withTemp_ok, a2, b2, except_bind]
    have hp : x.power = X.power := by
      obtain ⟨Y, y1, y2⟩ := a4
      rw [y1.power, y2.power]
    unfold WordCt.galoisApply
    by_cases hpw : X.power = K.power
    · rw [if_neg (by rw [hp, b4.power, hpw]; simp)]
      by_cases hs : X.size = K.numParts
      · obtain ⟨y, e, g1, g2, g3⟩ := b4.apply x X a4 hs hpw
        refine ⟨e, g2, ?_⟩
        rw [if_neg (by simp [hs, hpw]), g1]
        exact newCt_match hM g3
      · refine ⟨0, h0, ?_⟩
        rw [if_pos (.inr hs), b4.reject x X a4 hs]
        exact ⟨rfl, hM⟩
    · refine ⟨0, h0, ?_⟩
      rw [if_pos (by rw [hp, b4.power]; exact_mod_cast hpw), if_pos (.inl hpw)]
      exact ⟨rfl, hM⟩

/-- Every program simulates the machine with some noise. -/
theorem keyedRun_match (hC : Fit C p) (ht : Tables p C.w C.q C.l C.psi q) (P : ErrorParams) {σ : Fin C.n → ℤ} {t A : ℕ}
    {rks : List Word.RKey} {keys : List KeyShape} (hkeys : List.Forall₂ (KRel C p q σ P t A) rks keys) :
    ∀ {cs : List (IdealKeyed C.n)} {m : Mem ℝ} {M₀ M : IdealMem C.n}, Cong t M₀ M → MRel C p σ m M →
      KeyedProper σ P C.q C.w keys M₀ cs → ∃ e : ℕ → Fin C.n → ℤ, (∀ i j, |e i j| ≤ (A : ℤ)) ∧
      (runKeyed ⟨p, q, P.bPlaintext C.n⟩ (P.bRelinearize C.n) rks m (cs.map (·.call p C.q))).1 =
        (keyedRun σ P C.q t keys e M cs).1 ∧
      MRel C p σ (runKeyed ⟨p, q, P.bPlaintext C.n⟩ (P.bRelinearize C.n) rks m (cs.map (·.call p C.q))).2
        (keyedRun σ P C.q t keys e M cs).2
  | [], m, M₀, M, _, hM, _ => ⟨0, fun i j => by simp, rfl, hM⟩
  | c :: cs, m, M₀, M, hcg, hM, hp => by
    obtain ⟨h1, h2⟩ := hp
    obtain ⟨e0, he0, key⟩ := keyed_match hC ht P hkeys hM (keyedProper_cong hcg h1)
    have hex := keyed_cong σ P C.q 1 keys e0 hcg c
    have fin : ∀ {m' : Mem ℝ} {M₀' M' : IdealMem C.n} {s : Outcome Unit}, Cong t M₀' M' → MRel C p σ m' M' →
        KeyedProper σ P C.q C.w keys M₀' cs → ∃ e : ℕ → Fin C.n → ℤ, e 0 = e0 ∧ (∀ i j, |e i j| ≤ (A : ℤ)) ∧
        (s :: (runKeyed ⟨p, q, P.bPlaintext C.n⟩ (P.bRelinearize C.n) rks m' (cs.map (·.call p C.q))).1) =
          s :: (keyedRun σ P C.q t keys (fun i => e (i + 1)) M' cs).1 ∧
        MRel C p σ (runKeyed ⟨p, q, P.bPlaintext C.n⟩ (P.bRelinearize C.n) rks m' (cs.map (·.call p C.q))).2
          (keyedRun σ P C.q t keys (fun i => e (i + 1)) M' cs).2 := by
      intro m' M₀' M' s g1 g2 g3
      obtain ⟨e, i1, i2, i3⟩ := keyedRun_match hC ht P hkeys g1 g2 g3
      refine ⟨fun i => Nat.casesOn i e0 e, rfl, fun i => ?_, by rw [i2], i3⟩
      cases i with
      | zero => exact he0
      | succ i => exact i1 i
    simp only [List.map_cons, runKeyed, keyedRun]
    cases hx : c.ideal σ P C.q 1 keys 0 M₀ with
    | ok N₀ =>
      rw [hx] at hex h2
      cases hy : c.ideal σ P C.q t keys e0 M with
      | ok N =>
        rw [hy] at hex key
        obtain ⟨k1, k2⟩ := key
        obtain ⟨e, f0, f1, f2, f3⟩ := fin (s := .ok ()) hex k2 h2
        refine ⟨e, f1, ?_⟩
        rw [f0, hy, k1]
        exact ⟨f2, f3⟩
      | error s => rw [hy] at hex; exact hex.elim
    | error s =>
      rw [hx] at hex h2
      cases hy : c.ideal σ P C.q t keys e0 M with
      | ok N => rw [hy] at hex; exact hex.elim
      | error s' =>
        rw [hy] at hex key
        obtain ⟨k1, k2⟩ := key
        obtain ⟨e, f0, f1, f2, f3⟩ := fin (s := .err s') hcg k2 h2
        refine ⟨e, f1, ?_⟩
        rw [f0, hy, k1]
        exact ⟨f2, f3⟩

end Shell.Store
