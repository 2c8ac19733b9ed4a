import Verif.Lemmas.StoreDisk
import Verif.Props.StoreKeys
/-!
# Property C103: saving, loading and crashes do not change what programs on symmetric-key ciphertexts compute
-/

namespace Shell
open Spec Rns WordCt ErrorTrack MParams Ntt NttRing Sym Expand
variable {ρ τ υ : Type} {p : MParams}

/-- **C103.** A program that starts as in C94, with encryptions of the messages `m i`, the polynomials `gs`, and
relinearization and Galois keys `rks`, saves polynomials, ciphertexts and keys, loads what it saved, any number of times,
and crashes at any points, losing its objects and keys and keeping what it saved.  Every call returns the status that the
machine whose saves are snapshots returns on the messages themselves.  Every ciphertext, loaded or computed from loaded
ones with loaded keys, has the machine's number of components, power and `Error()`, and decrypts to the machine's value
modulo the plaintext modulus `2^logT + 1` under the same bound as in C94; the secret key too can be saved and loaded.
Partial as C94 is: see `c94_power_witness`. -/
theorem c103_session_partial (G : Gen ρ) (G' : Gen τ) (hG' : Words G') (R : Word.Rng υ) (hR : ∀ t, Words (R.gen t))
    {w N : ℕ} (h : create w N = .ok p) (hw : w ≤ 128) (hw8 : 8 ≤ w)
    (hp : N.Prime) {l : ℕ} {q : NttParams} (hq : initNtt p l = .ok q) {variance logT : ℕ} {s s' : ρ} {k : Word.Key}
    (hk : Word.Key.sample G p q l variance logT s = .ok (k, s')) (hT : 2 ^ logT + 1 < N) (hvar : 2 * variance ≤ N)
    {c : ℕ} (m : Fin c → Fin (2 ^ l) → ℕ) {pt : Fin c → List ℕ}
    (hpt : ∀ i, HoldsPoly p q N (2 ^ l) (pt i) fun j => m i j) {fuel bEnc : ℕ} {t t' : Fin c → τ} {x : Fin c → Word.Ct}
    (hx : ∀ i, Word.encrypt G' fuel k (pt i) bEnc (t i) = .ok (x i, t' i)) {fs : List (List ℕ)}
    {gs : List (Fin (2 ^ l) → ℤ)} (hfs : List.Forall₂ (HoldsPoly p q N (2 ^ l)) fs gs)
    {rks : List Word.RKey} {keys : List KeyShape} (hrks : List.Forall₂ (Made R fuel k) rks keys)
    {A : ℕ} (hA : ∀ K ∈ keys, K.noise (2 ^ l) p.logModulus (2 * variance) ≤ A) (P : ErrorParams) :
    (∃ d, k.serialize = .ok d ∧ Word.Key.deserialize variance logT d p p q = .ok k) ∧
    ∃ (σ : Fin (2 ^ l) → ℤ) (e : Fin c → Fin (2 ^ l) → ℤ), HoldsPoly p q N (2 ^ l) k.key σ ∧
      (∀ i j, |e i j| ≤ 2 * variance) ∧
      ∀ cs : List (SavingCall (2 ^ l)),
        let start : SavedMachine (2 ^ l) := ⟨⟨gs, List.ofFn fun i => ⟨2, 1, fun j => m i j, bEnc, 0, 0⟩⟩, keys, [], [], []⟩
        let noisy : SavedMachine (2 ^ l) := ⟨⟨gs, List.ofFn fun i =>
          ⟨2, 1, fun j => m i j + (2 ^ logT + 1) * e i j, bEnc, 0, 0⟩⟩, keys, [], [], []⟩
        let real := Store.runDisk R fuel ⟨p, q, P.bPlaintext (2 ^ l)⟩ (P.bRelinearize (2 ^ l))
          ⟨⟨fs, List.ofFn fun i => ⟨(x i).c, (x i).power, (x i).error, []⟩⟩, rks, [], [], []⟩ (cs.map (·.call' p N))
        SavingProper σ P N w start cs →
        ∃ η : ℕ → Fin (2 ^ l) → ℤ, (∀ i j, |η i j| ≤ A) ∧
        real.1 = (savingRun σ P N (2 ^ logT + 1) 0 start cs).1 ∧
        List.Forall₂ (HoldsPoly p q N (2 ^ l)) real.2.mem.polys (savingRun σ P N (2 ^ logT + 1) 0 start cs).2.mem.polys ∧
        real.2.mem.cts.length = (savingRun σ P N (2 ^ logT + 1) 0 start cs).2.mem.cts.length ∧
        real.2.keys.length = (savingRun σ P N (2 ^ logT + 1) 0 start cs).2.keys.length ∧
        ∀ (a : ℕ) (y : Obj ℝ) (Y Z : IdealCt (2 ^ l)), real.2.mem.cts[a]? = some y →
          (savingRun σ P N (2 ^ logT + 1) 0 start cs).2.mem.cts[a]? = some Y →
          (savingRun σ P N (2 ^ logT + 1) η noisy cs).2.mem.cts[a]? = some Z →
          y.c.length = Y.size ∧ y.power = Y.power ∧ y.error = Y.error ∧
          (Y.power = 1 → (∀ j, 2 * |Z.value j| < (N : ℤ)) →
            Word.decrypt k ⟨y.c, y.power, bEnc⟩ = .ok (List.ofFn fun j => (Y.value j % (2 ^ logT + 1)).toNat)) := by
  obtain ⟨psi, σ, e, hC, ht, hσ, hs, he, hcong, hM⟩ := session_start G G' hG' h hw hp hq hk hT hvar m hpt hx hfs
  obtain ⟨K, h1, h2, h3, h4, h5, h6⟩ := sampled_holds G h hp hq hC hk hT
  have hvk := validKey_sample G h hp hq hk hT
  have hkeys : List.Forall₂ (Store.KeyOk R fuel ⟨w, N, l, psi⟩ p q σ P (2 ^ logT + 1) A) rks keys := by
    have : ∀ {xs : List Word.RKey} {Xs : List KeyShape}, List.Forall₂ (Made R fuel k) xs Xs →
        (∀ K ∈ Xs, K.noise (2 ^ l) p.logModulus (2 * variance) ≤ A) →
        List.Forall₂ (Store.KeyOk R fuel ⟨w, N, l, psi⟩ p q σ P (2 ^ logT + 1) A) xs Xs := by
      intro xs Xs hx hX
      induction hx with
      | nil => exact .nil
      | cons g1 g2 ih =>
        refine .cons ⟨Store.krel_of_made hC ht hw R hR h h1 ?_ (Nat.succ_pos _) h4 (by rw [h5]; push_cast; rfl)
          (by rw [hσ, h2]) P g1 ?_, ?_⟩ (ih fun X hm => hX X (by simp [hm]))
        · show 2 * k.variance ≤ N
          rw [h1.variance, h3]; exact hvar
        · have := hX _ List.mem_cons_self
          rw [h3]
          rwa [logModulus_of_create h] at this
        · obtain ⟨-, prng, seed, seedE, g⟩ := g1
          exact c29_relinearization h hp hq hw hw8 R fuel k hvk prng _ _ _ seed seedE _ g
    exact this hrks hA
  refine ⟨?_, σ, e, hs, he, fun cs => ?_⟩
  · obtain ⟨k1, k2, k3, k4, k5, -, -, -⟩ := sample_word G h hp hq hk hT
    obtain ⟨l1, l2, -⟩ := logModulus_facts h hw
    have hlog : logT + 1 ≤ p.logModulus := by
      have : 2 ^ logT < 2 ^ p.logModulus := by omega
      exact (Nat.pow_lt_pow_iff_right (by norm_num)).mp this
    have htm : Sym.plaintextModulus k.tp.w k.logT >>= (fun t => .ok (Mont.importInt k.tp t)) = .ok k.tMod := by
      have hk' := hk
      unfold Word.Key.sample at hk'
      rw [if_neg (by have := ht.l15; omega)] at hk'
      obtain ⟨_, -, hk'⟩ := Outcome.bind_eq_ok.mp hk'
      obtain ⟨_, -, hk'⟩ := Outcome.bind_eq_ok.mp hk'
      obtain ⟨T, hT', hk'⟩ := Outcome.bind_eq_ok.mp hk'
      cases hk'
      show Sym.plaintextModulus p.w logT >>= _ = _
      rw [hT']; rfl
    have := c29_key_partial h hp hq hw hw8 k hvk (by rw [k5]; exact hlog) htm
    rwa [k3, k4, k5] at this
  intro start noisy real hcs
  have hcong' : Store.SCong (2 ^ logT + 1) start noisy := ⟨hcong, rfl, rfl, .nil, rfl⟩
  obtain ⟨η, f0, f1, f2⟩ := Store.savingRun_match R fuel hC ht hw hw8 h P hcong'
    (s := ⟨⟨fs, List.ofFn fun i => ⟨(x i).c, (x i).power, (x i).error, []⟩⟩, rks, [], [], []⟩)
    (A := A) ⟨hM, hkeys, .nil, .nil, .nil⟩ hcs
  obtain ⟨r1, r2⟩ := Store.savingRun_cong σ P N (cs := cs) η hcong'
  refine ⟨η, f0, f1.trans r1.symm, ?_, ?_, ?_, fun a y Y Z hy hY hZ => ?_⟩
  · rw [r2.mem.polys]
    exact f2.mem.polys.imp fun _ _ => (holdsPoly_iff hC ht).mpr
  · rw [r2.mem.cts.length_eq]
    exact f2.mem.cts.length_eq
  · rw [r2.keys]
    exact f2.keys.length_eq
  obtain ⟨Z', z1, z2⟩ := Store.object_some r2.mem.cts hY
  obtain rfl : Z' = Z := Option.some.inj (z1.symm.trans hZ)
  have hrel := crel_get f2.mem hy hZ
  have hh := holds_of_crel hC ht hrel
  exact ⟨by rw [z2.size, hh.size], by rw [z2.power, hh.power], by rw [z2.error, hh.error], fun hpow hb =>
    decrypt_of_crel G h hp hq hk hT ht hσ hrel z2 hpow hb bEnc⟩

/-- A loaded ciphertext is not what was saved if products were collected and not merged: of an encryption to which
`FusedAbsorbAddInPlaceLazily` added a product, `MergeLazyOperations` makes another ciphertext; saved before and loaded,
the ciphertext has nothing to merge, its components are those of the encryption, and its `Error()` counts the product. -/
theorem c103_pending_witness : (do
    let p ← create 16 12289
    let q ← initNtt p 1
    let (k, _) ← Word.Key.sample toyGen p q 1 1 1 77
    let m0 ← Poly.convertToNtt p q ([1, 2].map (Mont.importInt p))
    let (x0, _) ← Word.encrypt toyGen 8 k m0 3 5
    let r := Store.runDisk (E := ℚ) toyRng 8 ⟨p, q, 5⟩ (fun c b => .ok (c * b))
      ⟨⟨[m0], [⟨x0.c, x0.power, x0.error, []⟩]⟩, [], [], [], []⟩
      [.call (.plain (.ctIn 0 (.lazily 0 0))), .saveCt 0, .loadCt 0, .call (.plain (.ctIn 1 .merge)),
        .call (.plain (.ctIn 0 .merge))]
    let y0 ← Shell.rd r.2.mem.cts 0
    let y1 ← Shell.rd r.2.mem.cts 1
    let d0 ← Word.decrypt k ⟨y0.c, y0.power, 0⟩
    let d1 ← Word.decrypt k ⟨y1.c, y1.power, 0⟩
    .ok (r.1, d0, d1, decide (y1.c = x0.c ∧ y0.error = 18 ∧ y1.error = 18))) =
    .ok ([.ok (), .ok (), .ok (), .err .failedPrecondition, .ok ()], [1, 0], [1, 2], true) := by
  decide +kernel

/-! ### A concrete case -/

/-- A product is saved and so are both keys; after a crash they are loaded, in another order, and the product is
relinearized with a loaded key; its image under `X -> X^3` is moved back with the other; a product collected lazily is
lost by saving; a ciphertext without components is saved and not loaded. -/
def exSaving : List (SavingCall 2) :=
  [.call (.plain (.ctMul 0 1)), .saveCt 2, .saveKey 0, .saveKey 1, .crash, .loadKey 1, .loadKey 0, .loadCt 0,
    .call (.relinearize 0 1), .call (.plain (.ctSubstitute 1 3)), .call (.galois 2 0), .saveCt 3, .crash, .loadCt 1,
    .loadCt 1, .call (.plain (.ofCoeffs ![1, -2])), .call (.plain (.ctIn 0 (.lazily 1 0))), .saveCt 0, .loadCt 2,
    .call (.plain (.ctIn 2 .merge)), .savePoly 0, .loadPoly 0, .call (.plain (.ctIn 1 (.absorb 1))),
    .call (.plain (.ctMake [] 1 0)), .saveCt 3, .loadCt 3]

/-- Every call of `exSaving` is proper. -/
example (σ f g : Fin 2 → ℤ) (P : ErrorParams) : SavingProper σ P 12289 16
    ⟨⟨[], [⟨2, 1, f, 0, 0, 0⟩, ⟨2, 1, g, 0, 0, 0⟩]⟩, [⟨3, 2, 1⟩, ⟨2, 2, 3⟩], [], [], []⟩ exSaving := by
  simp [exSaving, SavingProper, SavingCall.Proper, SavingCall.ideal, IdealKeyed.Proper, IdealKeyed.ideal,
    IdealCall.Proper, IdealCall.ideal, object, idealOp,
    OpProper, Admissible, Store.except_bind, Store.except_error]

/-- The calls on encryptions of `1 + 2 X` and `2 + X` modulo 12289 with `t = 3`: statuses are those of the machine, the
ciphertext that lost its collected product still decrypts to `-5 X`, and that multiplied by the loaded `1 - 2 X` to
`-5 X (1 - 2 X)` modulo `X^2 + 1`. -/
example : (do
    let p ← create 16 12289
    let q ← initNtt p 1
    let (k, _) ← Word.Key.sample toyGen p q 1 1 1 77
    let m0 ← Poly.convertToNtt p q ([1, 2].map (Mont.importInt p))
    let m1 ← Poly.convertToNtt p q ([2, 1].map (Mont.importInt p))
    let (x0, s) ← Word.encrypt toyGen 8 k m0 0 5
    let (x1, _) ← Word.encrypt toyGen 8 k m1 0 s
    let rk ← Word.RKey.create toyRng 8 k .hkdf 3 2 1 [3] [4]
    let gk ← Word.RKey.create toyRng 8 k .chacha 2 2 3 [5] [6]
    let r := Store.runDisk (E := ℚ) toyRng 8 ⟨p, q, 5⟩ (fun c b => .ok (c * b))
      ⟨⟨[], [⟨x0.c, x0.power, x0.error, []⟩, ⟨x1.c, x1.power, x1.error, []⟩]⟩, [rk, gk], [], [], []⟩
      [.call (.plain (.ctMul 0 1)), .saveCt 2, .saveKey 0, .saveKey 1, .crash, .loadKey 1, .loadKey 0, .loadCt 0,
        .call (.relinearize 0 1), .call (.plain (.ctSubstitute 1 3)), .call (.galois 2 0), .saveCt 3, .crash, .loadCt 1,
        .loadCt 1, .call (.plain (.ofCoeffs ([1, 12287].map (Mont.importInt p)))),
        .call (.plain (.ctIn 0 (.lazily 1 0))), .saveCt 0, .loadCt 2, .call (.plain (.ctIn 2 .merge)), .savePoly 0,
        .loadPoly 0, .call (.plain (.ctIn 1 (.absorb 1))), .call (.plain (.ctMake [] 1 0)), .saveCt 3, .loadCt 3]
    let y1 ← Shell.rd r.2.mem.cts 1
    let y2 ← Shell.rd r.2.mem.cts 2
    let d1 ← Word.decrypt k ⟨y1.c, y1.power, 0⟩
    let d2 ← Word.decrypt k ⟨y2.c, y2.power, 0⟩
    .ok (r.1, d1, d2)) =
    .ok (List.replicate 19 (.ok ()) ++ [.err .failedPrecondition, .ok (), .ok (), .ok (), .ok (), .ok (),
      .err .invalidArgument], [2, 1], [0, 1]) := by
  decide +kernel

end Shell
