import Verif.Lemmas.StoreSafe
import Verif.Props.StoreKeys
import Verif.Props.RnsPolynomial
/-!
# Property C95: no program on polynomials, symmetric-key ciphertexts and keys has undefined behaviour
-/

namespace Shell
open Spec Rns Store ErrorTrack MParams Ntt
variable {E σ : Type} [Add E] [Mul E] [Div E] [NatCast E] {w l : ℕ}

/-- **C95.** Whatever a program has stored in its polynomials and ciphertexts, and whatever its calls return, none of
them has undefined behaviour.
*Partial*: the arguments have to fit (`KeyedFits`), which the library does not check (`c95_unchecked_violated`). -/
theorem c95_defined_partial {M : Modulus} (hm : GoodModulus w l M) (hw : w ≤ 128) {e : Store.Env E} (hp : e.p = M.p) (hq : e.q = M.q)
    {bR : ℕ → ℕ → Outcome E} {keys : List Word.RKey} (hk : ∀ k ∈ keys, KeyFits e bR k) {m : Mem E}
    {cs : List (KeyedCall E)} (hc : KeyedFitsAll l e bR keys m cs) :
    ∀ s ∈ (runKeyed e bR keys m cs).1, ∀ u, s ≠ .ub u := by
  induction cs generalizing m with
  | nil => simp [runKeyed]
  | cons c cs ih =>
    intro s hs
    simp only [runKeyed, List.mem_cons] at hs
    rcases hs with rfl | hs
    · exact (def_keyed hm hw hp hq hk hc.1).2
    · exact ih hc.2 s hs

/-- Keys that `RelinearizationKey::Create` and `GaloisKey::Create` return fit, if the base is below `2^31`. -/
theorem c95_created_key {R : Word.Rng σ} {fuel : ℕ} {k : Word.Key} {prng : PrngType} {numParts : ℤ} {b : ℕ} {pw : ℤ}
    {seed seedE : List ℕ} {rk : Word.RKey} (h : Word.RKey.create R fuel k prng numParts b pw seed seedE = .ok rk)
    (hb : b < 31) (P : ErrorParams) (n : ℕ) (B : ℝ) : KeyFits ⟨k.p, k.q, B⟩ (P.bRelinearize n) rk := by
  unfold Word.RKey.create at h
  obtain ⟨_, h⟩ | ⟨h1, h⟩ := ite_eq_iff.mp h
  · cases h
  obtain ⟨_, h⟩ | ⟨h2, h⟩ := ite_eq_iff.mp h
  · cases h
  obtain ⟨_, h⟩ | ⟨h3, h⟩ := ite_eq_iff.mp h
  · cases h
  simp only [Outcome.bind_eq_ok] at h
  obtain ⟨one, _, base, _, s, _, t, _, d, hd, parts, hparts, h⟩ := h
  cases h
  obtain ⟨a1, a2⟩ := shape_createParts _ _ hparts
  refine fits_of_shape rfl rfl ?_ (gadgetSize_pos (by omega) (by omega) hd) hb a2 fun u => ?_
  · simp only
    rw [a1]
    unfold Relin.firstKeyIndex
    split_ifs at h1 ⊢ <;> omega
  · unfold ErrorParams.bRelinearize Relin.decompositionModulus
    simp only
    rw [if_neg h2, if_pos hb]
    simp [Outcome.bind_ok]

/-- So does every key that `RelinearizationKey::Deserialize` returns, wherever the serialized key comes from. -/
theorem c95_parsed_key {R : Word.Rng σ} {fuel : ℕ} {x : Word.SRKey} {p : MParams} {q : NttParams} {rk : Word.RKey}
    (h : Word.RKey.deserialize R fuel x p q = .ok rk) (hb : x.logDecomp < 31) (P : ErrorParams) (n : ℕ) (B : ℝ) :
    KeyFits ⟨p, q, B⟩ (P.bRelinearize n) rk := by
  unfold Word.RKey.deserialize at h
  simp only at h
  obtain ⟨_, h⟩ | ⟨h1, h⟩ := ite_eq_iff.mp h
  · cases h
  obtain ⟨_, h⟩ | ⟨h2, h⟩ := ite_eq_iff.mp h
  · cases h
  obtain ⟨_, h⟩ | ⟨h3, h⟩ := ite_eq_iff.mp h
  · cases h
  obtain ⟨_, h⟩ | ⟨h4, h⟩ := ite_eq_iff.mp h
  · cases h
  simp only [Outcome.bind_eq_ok] at h
  obtain ⟨d, hd, h⟩ := h
  obtain ⟨_, h⟩ | ⟨h5, h⟩ := ite_eq_iff.mp h
  · cases h
  simp only [Outcome.bind_eq_ok] at h
  obtain ⟨one, _, s, _, parts, hparts, h⟩ := h
  cases h
  have h6 := not_not.1 h5
  obtain ⟨a1, a2⟩ := shape_desParts _ _ (by rw [Nat.zero_add]; exact Nat.mul_div_le _ _) hparts
  refine fits_of_shape rfl rfl (by simp only; omega) (d := d) (gadgetSize_pos (by omega) (by omega) hd) (b := x.logDecomp.toNat) (by omega)
    (fun m hm => h6 ▸ a2 m hm) fun u => ?_
  unfold ErrorParams.bRelinearize Relin.decompositionModulus
  simp only
  rw [if_neg (by omega), if_pos (by omega)]
  simp [Outcome.bind_ok]

/-! ### What the library does not check -/

/-- Tables for the dimension `2^l` modulo 97. -/
def exSafeEnv (l : ℕ) : Store.Env ℚ := ⟨(exampleModulus 16 l 97).p, (exampleModulus 16 l 97).q, 5⟩

/-- Tables for the dimension 8 and a polynomial of 5 coefficients; its coefficients are not reduced. -/
def exShort : Mem ℚ := ⟨[[1, 2000, 3, 4, 5]], []⟩

/-- A key for three components, with polynomials of other lengths than those of the ciphertexts. -/
def exOddKey : Word.RKey :=
  ⟨2, 3, 4, 0, 1, (exampleModulus 16 2 97).p, (exampleModulus 16 2 97).q,
    [⟨[[1, 2, 3, 4], [1]], [[70000, 2, 3, 4], []], 4⟩], [], .hkdf⟩

/-- Calls with arguments that do not fit are undefined: transforming an empty vector or one that is longer than the
tables; replacing `X` in a polynomial that is longer or shorter; a lazy sum that gets shorter; replacing `X` in a
ciphertext without components, or when the powers have a product that is not an `int`; applying a key to a ciphertext
with an empty polynomial. -/
theorem c95_unchecked_violated :
    (Store.runAll (exSafeEnv 2) ⟨[], []⟩ [.ofCoeffs []]).1 = [.ub .signedOverflow] ∧
    (Store.runAll (exSafeEnv 2) ⟨[], []⟩ [.ofCoeffs [1, 2, 3, 4, 5, 6, 7, 8]]).1 = [.ub .outOfBounds] ∧
    (Store.runAll (exSafeEnv 2) ⟨[[1, 2, 3, 4, 5, 6, 7, 8]], []⟩ [.substitute 0 11]).1 = [.ub .outOfBounds] ∧
    (Store.runAll (exSafeEnv 3) exShort [.substitute 0 5]).1 = [.ub .outOfBounds] ∧
    (Store.runAll (exSafeEnv 2) ⟨[[1, 2, 3, 4]], [⟨[[], []], 1, 0, [⟨[1, 2, 3, 4], 1, 1⟩, ⟨[1, 2, 3, 4], 1, 1⟩]⟩, ⟨[[1, 2, 3, 4]], 1, 0, []⟩]⟩
      [.ctIn 0 (.lazily 1 0)]).1 = [.ub .outOfBounds] ∧
    (Store.runAll (exSafeEnv 2) ⟨[], []⟩ [.ctMake [] 1 0, .ctSubstitute 0 3]).1 = [.ok (), .ub .outOfBounds] ∧
    (Store.runAll (exSafeEnv 2) ⟨[[1, 2, 3, 4]], []⟩ [.ctMake [0] (2 ^ 30) 0, .ctSubstitute 0 3]).1 =
      [.ok (), .ub .signedOverflow] ∧
    (runKeyed (exSafeEnv 2) (fun c b => .ok (c * b : ℚ)) [exOddKey] ⟨[], [⟨[[1, 2, 3, 4], [1, 2, 3, 4], []], 1, 0, []⟩]⟩
      [.relinearize 0 0]).1 = [.ub .signedOverflow] := by
  decide +kernel

/-! ### A concrete case -/

instance (m : Mem E) (i : ℕ) (P : List ℕ → Prop) [DecidablePred P] : Decidable (HasPoly m i P) :=
  match h : m.polys[i]? with
  | none => isFalse fun ⟨v, h1, _⟩ => by rw [h] at h1; cases h1
  | some v => if hP : P v then isTrue ⟨v, h, hP⟩ else isFalse fun ⟨u, h1, h2⟩ => by rw [h] at h1; cases h1; exact hP h2

instance (m : Mem E) (i : ℕ) (P : WordCt.Obj E → Prop) [DecidablePred P] : Decidable (HasCt m i P) :=
  match h : m.cts[i]? with
  | none => isFalse fun ⟨v, h1, _⟩ => by rw [h] at h1; cases h1
  | some v => if hP : P v then isTrue ⟨v, h, hP⟩ else isFalse fun ⟨u, h1, h2⟩ => by rw [h] at h1; cases h1; exact hP h2

instance (m : Mem E) (x : WordCt.Obj E) (op : CtOp) : Decidable (OpFits m x op) := by
  cases op <;> dsimp only [OpFits] <;> infer_instance

instance (m : Mem E) (c : Store.Call E) : Decidable (CallFits l m c) := by
  cases c <;> dsimp only [CallFits] <;> infer_instance

instance (keys : List Word.RKey) (m : Mem E) (c : KeyedCall E) : Decidable (KeyedFits l keys m c) := by
  cases c <;> dsimp only [KeyedFits] <;> infer_instance

instance decKeyedFitsAll (e : Store.Env E) (bR : ℕ → ℕ → Outcome E) (keys : List Word.RKey) :
    (m : Mem E) → (cs : List (KeyedCall E)) → Decidable (KeyedFitsAll l e bR keys m cs)
  | _, [] => isTrue trivial
  | m, c :: cs => @instDecidableAnd _ _ _ (decKeyedFitsAll e bR keys (c.run e bR keys m).1 cs)

/-- Objects of all lengths, with words that are not reduced, and calls on them: most of them are rejected, and some are
not. -/
def exOddProgram : List (KeyedCall ℚ) :=
  [.plain (.ofCoeffs [7, 8, 9]), .plain (.binary .add 0 1), .plain (.binaryIn .mul 1 1), .plain (.substitute 0 3),
    .plain (.substitute 2 3), .plain (.substitute 2 (-7)), .plain (.parse 3 [255, 255]), .plain (.parse 4 [1, 2, 3, 4]),
    .plain (.component 0 (-1)), .plain (.ctMake [2, 0] 9 0), .plain (.ctMake [2, 2] 1 0),
    .plain (.ctIn 0 (.add 1)), .plain (.ctMul 0 0), .plain (.ctMul 1 1), .plain (.ctMul 3 3),
    .plain (.ctIn 0 (.lazily 0 2)), .plain (.ctIn 0 .merge), .plain (.ctSubstitute 2 5), .plain (.ctSubstitute 3 5),
    .galois 1 0, .relinearize 1 0, .relinearize 4 0, .plain (.fusedIn 2 2 2)]

/-- The objects at the beginning. -/
def exOddMem : Mem ℚ :=
  ⟨[[], [99999, 1, 2], [1, 2, 70000, 4]], [⟨[[1, 2, 3, 4], [1], []], 1, 0, []⟩, ⟨[[1, 2, 3, 4], [1, 2, 3], [5, 6, 7, 8]], 1, 0, []⟩]⟩

/-- The arguments fit, and the key does. -/
example : GoodModulus 16 2 (exampleModulus 16 2 97) ∧
    (∀ k ∈ [exOddKey], KeyFits (exSafeEnv 2) (fun c b => .ok (c * b : ℚ)) k) ∧
    KeyedFitsAll 2 (exSafeEnv 2) (fun c b => .ok (c * b : ℚ)) [exOddKey] exOddMem exOddProgram := by
  refine ⟨exampleModulus_of (by norm_num) (by decide +kernel) (by decide +kernel), ?_, by decide +kernel⟩
  rintro k hk
  rw [List.mem_singleton] at hk
  subst hk
  exact ⟨rfl, rfl, by decide, by decide, by decide +kernel, by simp⟩

/-- What the calls return. -/
example : (runKeyed (exSafeEnv 2) (fun c b => .ok (c * b : ℚ)) [exOddKey] exOddMem exOddProgram).1 =
    [.ok (), .err .invalidArgument, .ok (), .err .invalidArgument, .ok (),
      .err .invalidArgument, .err .invalidArgument, .ok (), .err .invalidArgument, .ok (),
      .ok (), .err .invalidArgument, .err .invalidArgument, .err .invalidArgument, .ok (),
      .err .invalidArgument, .ok (), .err .invalidArgument, .ok (), .err .invalidArgument,
      .err .invalidArgument, .err .invalidArgument, .ok ()] := by
  decide +kernel

end Shell
