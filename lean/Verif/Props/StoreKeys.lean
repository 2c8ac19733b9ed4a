import Verif.Lemmas.StoreKeys
import Verif.Props.Store
/-!
# Property C94: programs with key switching
-/

namespace Shell
open Spec Rns WordCt ErrorTrack MParams Ntt NttRing Sym Expand
variable {ρ τ υ : Type} {p : MParams}

/-- **C94.** A program holds encryptions of the messages `m i`, the polynomials `gs`, and relinearization and Galois
keys `rks` of the same secret key, and makes any calls on them.  Every call returns the status that the machine returns
on the messages themselves.  Every ciphertext decrypts to the machine's value modulo the plaintext modulus
`2^logT + 1`, as long as the machine's value for the messages with their noise, to which every key switching adds
`2^logT + 1` times a polynomial of coefficients at most `A`, stays below half the ciphertext modulus. -/
theorem c94_session_partial (G : Gen ρ) (G' : Gen τ) (hG' : Words G') (R : Word.Rng υ) (hR : ∀ t, Words (R.gen t)) {w N : ℕ}
    (h : create w N = .ok p) (hw : w ≤ 128)
    (hp : N.Prime) {l : ℕ} {q : NttParams} (hq : initNtt p l = .ok q) {variance logT : ℕ} {s s' : ρ} {k : Word.Key}
    (hk : Word.Key.sample G p q l variance logT s = .ok (k, s')) (hT : 2 ^ logT + 1 < N) (hvar : 2 * variance ≤ N)
    {c : ℕ} (m : Fin c → Fin (2 ^ l) → ℕ) {pt : Fin c → List ℕ}
    (hpt : ∀ i, HoldsPoly p q N (2 ^ l) (pt i) fun j => m i j) {fuel bEnc : ℕ} {t t' : Fin c → τ} {x : Fin c → Word.Ct}
    (hx : ∀ i, Word.encrypt G' fuel k (pt i) bEnc (t i) = .ok (x i, t' i)) {fs : List (List ℕ)}
    {gs : List (Fin (2 ^ l) → ℤ)} (hfs : List.Forall₂ (HoldsPoly p q N (2 ^ l)) fs gs)
    {rks : List Word.RKey} {keys : List KeyShape} (hrks : List.Forall₂ (Made R fuel k) rks keys)
    {A : ℕ} (hA : ∀ K ∈ keys, K.noise (2 ^ l) p.logModulus (2 * variance) ≤ A) (P : ErrorParams) :
    ∃ (σ : Fin (2 ^ l) → ℤ) (e : Fin c → Fin (2 ^ l) → ℤ), HoldsPoly p q N (2 ^ l) k.key σ ∧
      (∀ i j, |e i j| ≤ 2 * variance) ∧
      ∀ cs : List (IdealKeyed (2 ^ l)),
        KeyedProper σ P N w keys ⟨gs, List.ofFn fun i => ⟨2, 1, fun j => m i j, bEnc, 0, 0⟩⟩ cs →
        ∃ η : ℕ → Fin (2 ^ l) → ℤ, (∀ i j, |η i j| ≤ A) ∧
        (Store.runKeyed ⟨p, q, P.bPlaintext (2 ^ l)⟩ (P.bRelinearize (2 ^ l)) rks
          ⟨fs, List.ofFn fun i => ⟨(x i).c, (x i).power, (x i).error, []⟩⟩ (cs.map (·.call p N))).1 =
          (keyedRun σ P N (2 ^ logT + 1) keys 0 ⟨gs, List.ofFn fun i => ⟨2, 1, fun j => m i j, bEnc, 0, 0⟩⟩ cs).1 ∧
        ∀ (a : ℕ) (y : Obj ℝ) (Y Z : IdealCt (2 ^ l)),
          (Store.runKeyed ⟨p, q, P.bPlaintext (2 ^ l)⟩ (P.bRelinearize (2 ^ l)) rks
            ⟨fs, List.ofFn fun i => ⟨(x i).c, (x i).power, (x i).error, []⟩⟩ (cs.map (·.call p N))).2.cts[a]? = some y →
          (keyedRun σ P N (2 ^ logT + 1) keys 0 ⟨gs, List.ofFn fun i => ⟨2, 1, fun j => m i j, bEnc, 0, 0⟩⟩
            cs).2.cts[a]? = some Y →
          (keyedRun σ P N (2 ^ logT + 1) keys η ⟨gs, List.ofFn fun i =>
            ⟨2, 1, fun j => m i j + (2 ^ logT + 1) * e i j, bEnc, 0, 0⟩⟩ cs).2.cts[a]? = some Z →
          y.c.length = Y.size ∧ y.power = Y.power ∧ y.error = Y.error ∧
          (Y.power = 1 → (∀ j, 2 * |Z.value j| < (N : ℤ)) →
            Word.decrypt k ⟨y.c, y.power, bEnc⟩ = .ok (List.ofFn fun j => (Y.value j % (2 ^ logT + 1)).toNat)) := by
  obtain ⟨psi, σ, e, hC, ht, hσ, hs, he, hcong, hM⟩ := session_start G G' hG' h hw hp hq hk hT hvar m hpt hx hfs
  obtain ⟨K, h1, h2, h3, h4, h5, h6⟩ := sampled_holds G h hp hq hC hk hT
  have hkeys : List.Forall₂ (Store.KRel ⟨w, N, l, psi⟩ p q σ P (2 ^ logT + 1) A) rks keys := by
    have : ∀ {xs : List Word.RKey} {Xs : List KeyShape}, List.Forall₂ (Made R fuel k) xs Xs →
        (∀ K ∈ Xs, K.noise (2 ^ l) p.logModulus (2 * variance) ≤ A) →
        List.Forall₂ (Store.KRel ⟨w, N, l, psi⟩ p q σ P (2 ^ logT + 1) A) xs Xs := by
      intro xs Xs hx hX
      induction hx with
      | nil => exact .nil
      | cons g1 g2 ih =>
        refine .cons (Store.krel_of_made hC ht hw R hR h h1 ?_ (Nat.succ_pos _) h4 (by rw [h5]; push_cast; rfl)
          (by rw [hσ, h2]) P g1 ?_) (ih fun X hm => hX X (by simp [hm]))
        · show 2 * k.variance ≤ N
          rw [h1.variance, h3]; exact hvar
        · have := hX _ List.mem_cons_self
          rw [h3]
          rwa [logModulus_of_create h] at this
    exact this hrks hA
  refine ⟨σ, e, hs, he, fun cs hcs => ?_⟩
  obtain ⟨η, f0, f1, f2⟩ := Store.keyedRun_match hC ht P hkeys hcong hM hcs
  obtain ⟨r1, r2⟩ := Store.keyedRun_cong σ P N keys (cs := cs) η hcong
  refine ⟨η, f0, f1.trans r1.symm, fun a y Y Z hy hY hZ => ?_⟩
  obtain ⟨Z', z1, z2⟩ := Store.object_some r2.cts hY
  obtain rfl : Z' = Z := Option.some.inj (z1.symm.trans hZ)
  have hrel := crel_get f2 hy hZ
  have hh := holds_of_crel hC ht hrel
  exact ⟨by rw [z2.size, hh.size], by rw [z2.power, hh.power], by rw [z2.error, hh.error], fun hpow hb =>
    decrypt_of_crel G h hp hq hk hT ht hσ hrel z2 hpow hb bEnc⟩

/-- C94 is false for keys applied to a ciphertext under another power of the secret: a product of encryptions of
`1 + 2 X` and `2 + X`, substituted with `X -> X^3`, is relinearized with the relinearization key of the secret key
without an error, and the result, which claims to be a ciphertext under the secret key, decrypts to something else than
`-5 X`. -/
theorem c94_power_witness : (do
    let p ← create 16 12289
    let q ← initNtt p 1
    let (k, _) ← Word.Key.sample toyGen p q 1 1 1 77
    let m0 ← Poly.convertToNtt p q ([1, 2].map (Mont.importInt p))
    let m1 ← Poly.convertToNtt p q ([2, 1].map (Mont.importInt p))
    let (x0, s) ← Word.encrypt toyGen 8 k m0 0 5
    let (x1, _) ← Word.encrypt toyGen 8 k m1 0 s
    let rk ← Word.RKey.create toyRng 8 k .hkdf 3 2 1 [3] [4]
    let r := Store.runKeyed (E := ℚ) ⟨p, q, 5⟩ (fun c b => .ok (c * b)) [rk]
      ⟨[], [⟨x0.c, x0.power, x0.error, []⟩, ⟨x1.c, x1.power, x1.error, []⟩]⟩
      [.plain (.ctMul 0 1), .plain (.ctSubstitute 2 3), .relinearize 3 0]
    let y ← Shell.rd r.2.cts 4
    let d ← Word.decrypt k ⟨y.c, y.power, 0⟩
    .ok (r.1, y.power, decide (d = [0, 1]))) = .ok ([.ok (), .ok (), .ok ()], 1, false) := by
  decide +kernel

/-! ### A concrete case -/

/-- A product, relinearized; its image under `X -> X^3`, moved back to the secret key; a rejected automorphism (wrong
power), a rejected relinearization (two components), and a difference. -/
def exKeyed : List (IdealKeyed 2) :=
  [.plain (.ctMul 0 1), .relinearize 2 0, .plain (.ctSubstitute 3 3), .galois 4 1, .galois 3 1, .relinearize 0 0,
    .plain (.ctIn 5 (.sub 3))]

/-- Every call of `exKeyed` is proper, and the keys' noise is bounded by 84. -/
example (σ f g : Fin 2 → ℤ) (P : ErrorParams) :
    KeyedProper σ P 12289 16 [⟨3, 2, 1⟩, ⟨2, 2, 3⟩] ⟨[], [⟨2, 1, f, 0, 0, 0⟩, ⟨2, 1, g, 0, 0, 0⟩]⟩ exKeyed ∧
    ∀ K ∈ ([⟨3, 2, 1⟩, ⟨2, 2, 3⟩] : List KeyShape), K.noise (2 ^ 1) 14 (2 * 1) ≤ 84 := by
  refine ⟨?_, by decide⟩
  simp [exKeyed, KeyedProper, IdealKeyed.Proper, IdealKeyed.ideal, IdealCall.Proper, IdealCall.ideal, object, idealOp,
    OpProper, Admissible, Store.except_bind, Store.except_error]

/-- The calls on encryptions of `1 + 2 X` and `2 + X` modulo 12289 with `t = 3`: keys are created, statuses are those of
the machine, and the last ciphertexts decrypt to `(1 + 2 X) (2 + X) = 5 X` and `-5 X - 5 X` modulo `X^2 + 1`. -/
example : (do
    let p ← create 16 12289
    let q ← initNtt p 1
    let (k, _) ← Word.Key.sample toyGen p q 1 1 1 77
    let m0 ← Poly.convertToNtt p q ([1, 2].map (Mont.importInt p))
    let m1 ← Poly.convertToNtt p q ([2, 1].map (Mont.importInt p))
    let (x0, s) ← Word.encrypt toyGen 8 k m0 0 5
    let (x1, _) ← Word.encrypt toyGen 8 k m1 0 s
    let rk ← Word.RKey.create toyRng 8 k .hkdf 3 2 1 [3] [4]
    let gk ← Word.RKey.create toyRng 8 k .chacha 2 2 3 [5] [6]
    let r := Store.runKeyed (E := ℚ) ⟨p, q, 5⟩ (fun c b => .ok (c * b)) [rk, gk]
      ⟨[], [⟨x0.c, x0.power, x0.error, []⟩, ⟨x1.c, x1.power, x1.error, []⟩]⟩
      [.plain (.ctMul 0 1), .relinearize 2 0, .plain (.ctSubstitute 3 3), .galois 4 1, .galois 3 1, .relinearize 0 0,
        .plain (.ctIn 5 (.sub 3))]
    let y3 ← Shell.rd r.2.cts 3
    let y5 ← Shell.rd r.2.cts 5
    let d3 ← Word.decrypt k ⟨y3.c, y3.power, 0⟩
    let d5 ← Word.decrypt k ⟨y5.c, y5.power, 0⟩
    .ok (p.logModulus, r.1, d3, d5)) =
    .ok (14, [.ok (), .ok (), .ok (), .ok (), .err .invalidArgument, .err .invalidArgument, .ok ()], [0, 2], [0, 2]) := by
  decide +kernel

end Shell
