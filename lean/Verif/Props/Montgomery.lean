import Verif.Lemmas.MontInverse
import Verif.Model.Promotion
/-!
# Properties C01-C03, C05-C08 of `MontgomeryInt`

`MParams.create w N = .ok p` says that `MontgomeryIntParams<Int>::Create(N)` succeeded for a `w`-bit
`Int`; a modular integer is its stored word `n_`, and `p.exportInt a` is the residue that
`ExportInt` returns for it.  *Canonical* means `a < N`; the words the public operations can produce
are those with `a ≤ N` (`c05_reachable_le`; `N` itself is produced by `Negate(0)`).
-/

namespace Shell
open MParams

/-- The parameter set used in the non-vacuity examples: 16-bit words, modulus 12289. -/
def exParams : MParams := make 16 12289

theorem exParams_ok : create 16 12289 = .ok exParams := by decide +kernel

/-! ## C01 -/

/-- C01: importing any word and exporting it again reduces it modulo the modulus; the stored word is
canonical; `ImportZero` and `ImportOne` export 0 and `1 mod N`; and re-importing an exported
canonical word is the identity. -/
theorem c01_import_export {w N : ℕ} {p : MParams} (h : create w N = .ok p) :
    (∀ n < 2 ^ w, Mont.exportInt p (Mont.importInt p n) = n % N ∧ Mont.importInt p n < N) ∧
    Mont.exportInt p (Mont.importZero p) = 0 ∧ Mont.importZero p < N ∧
    Mont.exportInt p (Mont.importOne p) = 1 % N ∧ Mont.importOne p < N ∧
    (∀ a < N, Mont.exportInt p a < N ∧ Mont.importInt p (Mont.exportInt p a) = a) := by
  have g := good_of_create h
  have h4 := g.lt
  exact ⟨fun n hn => ⟨export_import g n hn, importInt_lt g n hn⟩, export_zero g, g.pos,
    export_importOne g, importOne_lt g, fun a ha =>
      ⟨exportInt_lt g a (by omega) (Or.inr ha.le), import_export g a ha⟩⟩

example : create 16 12289 = .ok exParams ∧ Mont.importInt exParams 65535 = 6861 ∧
    Mont.exportInt exParams 6861 = 65535 % 12289 := by decide +kernel

/-! ## C02 -/

/-- C02: `Create` succeeds exactly on odd moduli below `2^(w-2)` and fails with `INVALID_ARGUMENT`
otherwise; the constants it computes are exactly the documented ones. -/
theorem c02_create (w N : ℕ) :
    ((∃ p, create w N = .ok p) ↔ N % 2 = 1 ∧ N < 2 ^ (w - 2)) ∧
    ((¬ ∃ p, create w N = .ok p) → create w N = .err .invalidArgument) ∧
    (∀ p, create w N = .ok p →
      p.w = w ∧ p.modulus = N ∧
      2 ^ w * p.invR = N * p.invModulus + 1 ∧ p.invR ≤ N ∧ (1 < N → p.invR < N) ∧
      p.invModulus < 2 ^ w ∧
      p.rMod = 2 ^ w % N ∧ p.rModBarrett = 2 ^ w * (2 ^ w % N) / N ∧
      (1 < N → p.invRBarrett = 2 ^ w * p.invR / N) ∧
      p.barrettNum = 2 ^ w / N ∧ p.barrettNumBig = 2 ^ (2 * w - 1) / N) := by
  refine ⟨⟨?_, ?_⟩, ?_, ?_⟩
  · rintro ⟨p, hp⟩
    have := (create_ok_iff w N p).1 hp
    exact ⟨this.2.1, this.1⟩
  · rintro ⟨h1, h2⟩
    exact ⟨_, (create_ok_iff w N _).2 ⟨h2, h1, rfl⟩⟩
  · intro h
    unfold create at h ⊢
    split_ifs at h ⊢ <;> simp at h ⊢
  · intro p h
    have g := good_of_create h
    refine ⟨g.hw, g.hN, ?_, g.invR_le, g.invR_lt, g.invN_lt, g.rMod, ?_, ?_, g.bn, g.bnb⟩
    · have := g.inv; linarith
    · rw [g.rModB, g.rMod, mul_comm]
    · intro h1
      rw [g.invRB, trunc_eq w _ _ rfl, mul_comm]
      rw [Nat.div_lt_iff_lt_mul g.pos, mul_comm]
      exact Nat.mul_lt_mul_of_pos_left (g.invR_lt h1) (by positivity)

/-- The bit length stored by `Create` is the bit length of the modulus (see C12). -/
example : (make 32 4169729).logModulus = 22 ∧ (∃ p, create 32 4169729 = .ok p) ∧
    create 32 4 = .err .invalidArgument ∧ create 32 (2 ^ 30 + 1) = .err .invalidArgument := by
  refine ⟨by decide +kernel, ⟨make 32 4169729, by decide +kernel⟩, by decide +kernel,
    by decide +kernel⟩

/-! ## C03 -/

/-- C03: on all stored words (`≤ N`, in particular on canonical ones) the arithmetic members return a
canonical word that exports to the exact modular result. -/
theorem c03_arithmetic {w N : ℕ} {p : MParams} (h : create w N = .ok p)
    {s a b : ℕ} (hs : s ≤ N) (ha : a ≤ N) (hb : b ≤ N) :
    let E := Mont.exportInt p
    let c := Mont.getConstant p b
    (Mont.add p a b < N ∧ E (Mont.add p a b) = (E a + E b) % N) ∧
    (Mont.sub p a b < N ∧ (E (Mont.sub p a b) : ℤ) = ((E a : ℤ) - E b) % N) ∧
    (Mont.mul p a b < N ∧ E (Mont.mul p a b) = E a * E b % N) ∧
    (Mont.mulConstant p a c.1 c.2 < N ∧ E (Mont.mulConstant p a c.1 c.2) = E a * E b % N) ∧
    (Mont.fusedMulAdd p s a b < N ∧ E (Mont.fusedMulAdd p s a b) = (E s + E a * E b) % N) ∧
    (Mont.fusedMulConstantAdd p s a c.1 c.2 < N ∧
      E (Mont.fusedMulConstantAdd p s a c.1 c.2) = (E s + E a * E b) % N) := by
  have g := good_of_create h
  refine ⟨add_export g ha hb, ⟨(sub_export g ha hb).1, ?_⟩, ⟨mul_lt g ha hb, mul_export g ha hb⟩,
    mulConstant_export g ha hb, ⟨(fusedMulAdd_core g hs ha hb).1, fusedMulAdd_export g hs ha hb⟩,
    fusedMulConstantAdd_export g hs ha hb⟩
  unfold Mont.exportInt
  have h4 := g.lt
  have hlt := exportInt_lt g b (by omega) (Or.inr hb)
  rw [(sub_export g ha hb).2]
  push_cast [hlt.le]
  rw [← Int.add_emod_right (a := (p.exportInt a : ℤ) - p.exportInt b)]
  congr 1; ring

/-- The documented extended input ranges: `AddInPlace` accepts representations summing to at most
`4N`, `SubInPlace` a left operand up to `3N`, `MulConstantInPlace` any word. -/
theorem c03_extended_ranges {w N : ℕ} {p : MParams} (h : create w N = .ok p) {a b : ℕ} :
    (a + b ≤ 4 * N → Mont.add p a b = (a + b) % N) ∧
    (a ≤ 3 * N → b ≤ N → Mont.sub p a b = (a + (N - b)) % N) ∧
    (a < 2 ^ w → b ≤ N →
      Mont.mulConstant p a (Mont.getConstant p b).1 (Mont.getConstant p b).2 =
        a * Mont.exportInt p b % N) := by
  have g := good_of_create h
  have h4 := g.lt
  refine ⟨fun h1 => add_eq g (by omega), fun h1 h2 => sub_eq g h2 (by omega), fun h1 h2 => ?_⟩
  rw [getConstant_eq g h2]
  exact mulConstant_eq g h1 (exportInt_lt g b (by omega) (Or.inr h2))

example : let p := exParams
    create 16 12289 = .ok p ∧ 12288 ≤ 12289 ∧
    Mont.exportInt p (Mont.mul p 12288 8698) =
      Mont.exportInt p 12288 * Mont.exportInt p 8698 % 12289 ∧
    Mont.exportInt p (Mont.mul p 12288 8698) ≠ 0 := by decide +kernel

/-! ## C05 -/

/-- The words a client can obtain through the public operations of `MontgomeryInt`. -/
inductive Reachable (w : ℕ) (p : MParams) : ℕ → Prop
  | zero : Reachable w p (Mont.importZero p)
  | one : Reachable w p (Mont.importOne p)
  | imp (n : ℕ) (hn : n < 2 ^ w) : Reachable w p (Mont.importInt p n)
  | add {a b : ℕ} : Reachable w p a → Reachable w p b → Reachable w p (Mont.add p a b)
  | sub {a b : ℕ} : Reachable w p a → Reachable w p b → Reachable w p (Mont.sub p a b)
  | mul {a b : ℕ} : Reachable w p a → Reachable w p b → Reachable w p (Mont.mul p a b)
  | neg {a : ℕ} : Reachable w p a → Reachable w p (Mont.negate p a)
  | mulC {a b : ℕ} : Reachable w p a → Reachable w p b →
      Reachable w p (Mont.mulConstant p a (Mont.getConstant p b).1 (Mont.getConstant p b).2)
  | fma {s a b : ℕ} : Reachable w p s → Reachable w p a → Reachable w p b →
      Reachable w p (Mont.fusedMulAdd p s a b)
  | fmca {s a b : ℕ} : Reachable w p s → Reachable w p a → Reachable w p b →
      Reachable w p (Mont.fusedMulConstantAdd p s a (Mont.getConstant p b).1
        (Mont.getConstant p b).2)
  | pow {a : ℕ} (e : ℕ) : Reachable w p a → Reachable w p (Mont.modExp p a e)

/-- Invariant: every reachable word is at most the modulus, so C03 applies to every reachable
operand. -/
theorem c05_reachable_le {w N : ℕ} {p : MParams} (h : create w N = .ok p) {a : ℕ}
    (ha : Reachable w p a) : a ≤ N := by
  have g := good_of_create h
  have h4 := g.lt
  induction ha with
  | zero => exact Nat.zero_le _
  | one => exact (importOne_lt g).le
  | imp n hn => exact (importInt_lt g n hn).le
  | add _ _ h1 h2 => exact (add_export g h1 h2).1.le
  | sub _ _ h1 h2 => exact (sub_export g h1 h2).1.le
  | mul _ _ h1 h2 => exact (mul_lt g h1 h2).le
  | @neg a _ h1 =>
    unfold Mont.negate
    rw [g.hw, g.hN, trunc_eq w _ (N - a) (by omega) (by omega)]; omega
  | mulC _ _ h1 h2 => exact (mulConstant_export g h1 h2).1.le
  | fma _ _ _ h1 h2 h3 => exact (fusedMulAdd_core g h1 h2 h3).1.le
  | fmca _ _ _ h1 h2 h3 => exact (fusedMulConstantAdd_export g h1 h2 h3).1.le
  | pow e _ h1 => exact (modExp_spec g _ e h1).1.le

/-- C05, negation: the negation of every reachable word exports the negated residue. -/
theorem c05_negate {w N : ℕ} {p : MParams} (h : create w N = .ok p) {a : ℕ}
    (ha : Reachable w p a) :
    Mont.exportInt p (Mont.negate p a) = (N - Mont.exportInt p a) % N := by
  have g := good_of_create h
  have h4 := g.lt
  have hle := c05_reachable_le h ha
  unfold Mont.negate Mont.exportInt
  rw [g.hw, g.hN, trunc_eq w _ (N - a) (by omega) (by omega)]
  have h1 := exportInt_lt g (N - a) (by omega) (Or.inr (by omega))
  rw [← Nat.mod_eq_of_lt h1, ← ZMod.natCast_eq_natCast_iff', g.cast_export' _ (by omega),
    cast_sub_le hle, cast_sub_le (exportInt_lt g a (by omega) (Or.inr hle)).le,
    g.cast_export' a hle]
  ring

/-- C05, equality (partial): `operator==` decides equality of residues on canonical words.  Missing
part of the full statement: words produced by `Negate` on zero, see `c05_equality_violated`. -/
theorem c05_equality_partial {w N : ℕ} {p : MParams} (h : create w N = .ok p) {a b : ℕ}
    (ha : a < N) (hb : b < N) :
    Mont.beq a b = true ↔ Mont.exportInt p a = Mont.exportInt p b := by
  have g := good_of_create h
  unfold Mont.beq
  simp only [beq_iff_eq]
  exact ⟨fun e => by rw [e], fun e => g.export_inj ha hb e⟩

/-- `Negate` gives a canonical word exactly on non-zero representations. -/
theorem c05_negate_canonical_iff {w N : ℕ} {p : MParams} (h : create w N = .ok p) {a : ℕ}
    (ha : a ≤ N) : Mont.negate p a < N ↔ a ≠ 0 := by
  have g := good_of_create h
  have h4 := g.lt
  have := g.pos
  unfold Mont.negate
  rw [g.hw, g.hN, trunc_eq w _ (N - a) (by omega) (by omega)]; omega

/-- C05, the disagreement: for every created parameter set, `0` and `-0` are reachable, represent the
same residue and do not compare equal. -/
theorem c05_equality_violated {w N : ℕ} {p : MParams} (h : create w N = .ok p) :
    ∃ a b, Reachable w p a ∧ Reachable w p b ∧
      Mont.exportInt p a = Mont.exportInt p b ∧ Mont.beq a b = false := by
  have g := good_of_create h
  have h4 := g.lt
  have hpos := g.pos
  refine ⟨Mont.importZero p, Mont.negate p (Mont.importZero p), .zero, .neg .zero, ?_, ?_⟩
  · rw [c05_negate h .zero, (c01_import_export h).2.1]; simp
  · unfold Mont.negate Mont.importZero Mont.beq
    rw [g.hw, g.hN, trunc_eq w _ N (by simp) (by omega)]
    simp; omega

/-! ## C06 -/

/-- C06. -/
theorem c06_barrett {w N : ℕ} {p : MParams} (h : create w N = .ok p) :
    (∀ x < 2 ^ w, p.barrettReduce x = x % N) ∧
    (∀ x < 2 ^ (2 * w - 1), p.barrettReduceBigInt x = x % N) :=
  ⟨fun x hx => barrettReduce_eq (good_of_create h) x hx,
   fun x hx => barrettReduceBigInt_eq (good_of_create h) x hx⟩

/-- The bound in C06 matters: `BarrettReduceBigInt` accepts any double-width value, but its result is
not even a residue for some input just above `2^(2w-1)`. -/
theorem c06_barrett_bigint_bound : ∃ w N p x, create w N = .ok p ∧ x < 2 ^ (2 * w) ∧
    p.barrettReduceBigInt x ≠ x % N :=
  ⟨16, 13, make 16 13, 2 ^ 32 - 1, by decide +kernel⟩

/-! ## C07 -/

/-- C07, exponentiation. -/
theorem c07_modExp {w N : ℕ} {p : MParams} (h : create w N = .ok p) {a : ℕ} (ha : a ≤ N)
    (e : ℕ) :
    Mont.modExp p a e < N ∧
      Mont.exportInt p (Mont.modExp p a e) = Mont.exportInt p a ^ e % N :=
  modExp_spec (good_of_create h) a e ha

/-- C07, inverse by exponentiation, for prime moduli. -/
theorem c07_inverse {w N : ℕ} {p : MParams} (h : create w N = .ok p) (hN : N.Prime) {a : ℕ}
    (ha : a ≤ N) (hne : Mont.exportInt p a ≠ 0) :
    Mont.multiplicativeInverse p a < N ∧
      (Mont.exportInt p a * Mont.exportInt p (Mont.multiplicativeInverse p a)) % N = 1 :=
  multiplicativeInverse_spec (good_of_create h) hN a ha hne

/-- C07, extended Euclid, for every modulus: success exactly on units. -/
theorem c07_inverse_fast {w N : ℕ} {p : MParams} (h : create w N = .ok p) {a : ℕ} (ha : a ≤ N) :
    (Nat.Coprime (Mont.exportInt p a) N → ∃ b, Mont.multiplicativeInverseFast p a = .ok b ∧
      b < N ∧ (Mont.exportInt p a * Mont.exportInt p b) % N = 1 % N) ∧
    (¬ Nat.Coprime (Mont.exportInt p a) N →
      Mont.multiplicativeInverseFast p a = .err .invalidArgument) :=
  inverseFast_spec (good_of_create h) a ha

example : create 16 12289 = .ok exParams ∧ 5 ≤ 12289 ∧ Mont.exportInt exParams 5 ≠ 0 ∧
    Nat.Coprime (Mont.exportInt exParams 5) 12289 := by decide +kernel

example : ∃ p, create 16 15 = .ok p ∧ ¬ Nat.Coprime (Mont.exportInt p 6) 15 :=
  ⟨make 16 15, by decide +kernel⟩

/-! ## C08 -/

/-- What a batch operation promises: `INVALID_ARGUMENT` exactly when the lengths disagree, otherwise
a vector of the same length holding `f i` at every index `i`. -/
def BatchSpec (n : ℕ) (lengthsAgree : Prop) (f : ℕ → ℕ) (res : Outcome (List ℕ)) : Prop :=
  (¬ lengthsAgree → res = .err .invalidArgument) ∧
  (lengthsAgree → ∃ out, res = .ok out ∧ out.length = n ∧ ∀ i < n, out[i]? = some (f i))

/-- C08: for every vector and every parameter set the batch operations are the element-wise scalar
operations. -/
theorem c08_batch (p : MParams) (x y z u : List ℕ) (c cb : ℕ) :
    BatchSpec x.length (x.length = y.length)
      (fun i => Mont.add p x[i]! y[i]!) (Mont.batchAdd p x y) ∧
    BatchSpec x.length True (fun i => Mont.add p x[i]! c) (Mont.batchAddScalar p x c) ∧
    BatchSpec x.length (x.length = y.length)
      (fun i => Mont.sub p x[i]! y[i]!) (Mont.batchSub p x y) ∧
    BatchSpec x.length True (fun i => Mont.sub p x[i]! c) (Mont.batchSubScalar p x c) ∧
    BatchSpec x.length (x.length = y.length)
      (fun i => Mont.mul p x[i]! y[i]!) (Mont.batchMul p x y) ∧
    BatchSpec x.length True (fun i => Mont.mul p x[i]! c) (Mont.batchMulScalar p x c) ∧
    BatchSpec x.length (x.length = y.length ∧ y.length = z.length)
      (fun i => Mont.mulConstant p x[i]! y[i]! z[i]!) (Mont.batchMulConstant p x y z) ∧
    BatchSpec x.length True (fun i => Mont.mulConstant p x[i]! c cb)
      (Mont.batchMulConstantScalar p x c cb) ∧
    BatchSpec x.length (x.length = y.length ∧ y.length = z.length)
      (fun i => Mont.fusedMulAdd p x[i]! y[i]! z[i]!) (Mont.batchFusedMulAdd p x y z) ∧
    BatchSpec x.length (x.length = y.length ∧ y.length = z.length ∧ z.length = u.length)
      (fun i => Mont.fusedMulConstantAdd p x[i]! y[i]! z[i]! u[i]!)
      (Mont.batchFusedMulConstantAdd p x y z u) := by
  refine ⟨?_, ?_, ?_, ?_, ?_, ?_, ?_, ?_, ?_, ?_⟩
  all_goals
    simp only [BatchSpec, Mont.batchAdd, Mont.batchAddScalar, Mont.batchSub, Mont.batchSubScalar,
      Mont.batchMul, Mont.batchMulScalar, Mont.batchMulConstant, Mont.batchMulConstantScalar,
      Mont.batchFusedMulAdd, Mont.batchFusedMulConstantAdd]
    refine ⟨fun h => ?_, fun h => ?_⟩
  all_goals first
    | (exfalso; exact h trivial)
    | (rw [if_pos (by first | omega | exact h)])
    | (refine ⟨_, rfl, by simp, fun i hi => ?_⟩
       simp [hi])
    | (rw [if_neg (by first | omega | simpa using h)]
       refine ⟨_, rfl, by simp; try omega, fun i hi => ?_⟩
       have h1 : i < y.length := by omega
       first
         | (have h3 : i < u.length := by omega
            have h2 : i < z.length := by omega
            simp [List.getElem?_zipWith, List.zip, hi, h1, h2, h3]; done)
         | (have h2 : i < z.length := by omega
            simp [List.getElem?_zipWith, List.zip, hi, h1, h2]; done)
         | (simp [List.getElem?_zipWith, hi, h1]; done))

example : Mont.batchAdd exParams [1, 2] [3] = .err .invalidArgument ∧
    Mont.batchAdd exParams [1, 12288] [3, 5] = .ok [4, 4] := by decide +kernel

end Shell
