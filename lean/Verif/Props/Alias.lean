import Verif.Lemmas.Alias
import Verif.Props.Montgomery
import Verif.Props.Int256
/-!
# C77: operations whose operands are the same object
-/

namespace Shell
open Rns.Res Alias MParams

/-- C77 for polynomials: `AddInPlace`, `SubInPlace`, `MulInPlace`, `FusedMulAddInPlace` and
`FusedMulConstantAddInPlace` leave in the object what they compute from the values the operands had before the
call, whichever of the operands are the same object. -/
theorem c77_polynomial (p : MParams) (k : Poly.Const) {h : Heap} {d a b : ℕ} (hd : d < h.length) (ha : a < h.length)
    (hb : b < h.length) :
    let v := fun l => h.getD l []
    let left := fun (r : Rns.Res Heap) => r.1.getD d []
    SameAs h [d] (batchAdd p d a h) (left (batchAdd p d a h)) (vec (Poly.addInPlace p (v d) (v a))) ∧
    SameAs h [d] (batchSub p d a h) (left (batchSub p d a h)) (vec (Poly.subInPlace p (v d) (v a))) ∧
    SameAs h [d] (batchMul p d a h) (left (batchMul p d a h)) (vec (Poly.mulInPlace p (v d) (v a))) ∧
    SameAs h [d] (batchFused p d a b h) (left (batchFused p d a b h))
      (vec (Poly.fusedMulAddInPlace p (v d) (v a) (v b))) ∧
    SameAs h [d] (batchFusedConstant p d a k h) (left (batchFusedConstant p d a k h))
      (vec (Poly.fusedMulConstantAddInPlace p (v d) (v a) k)) := by
  have key : ∀ r : Rns.Res (List ℕ), SameAs h [d] (onVec h d r) ((onVec h d r).1.getD d []) r :=
    fun r => ⟨getD_set_self hd _, rfl, onVec_frame h d r⟩
  simp only [batchAdd_eq p hd ha, batchSub_eq p hd ha, batchMul_eq p hd ha, batchFused_eq p hd ha hb,
    batchFusedConstant_eq p k hd ha]
  exact ⟨key _, key _, key _, key _, key _⟩

/-- C77, the residues: for a polynomial `x` with the residues `v`, `x.AddInPlace(x)` leaves `2v`, `x.SubInPlace(x)`
leaves zero, `x.MulInPlace(x)` leaves `v²` and `x.FusedMulAddInPlace(x, x)` leaves `v + v²`. -/
theorem c77_self_values {w N : ℕ} {p : MParams} (hc : create w N = .ok p) {h : Heap} {d : ℕ} (hd : d < h.length)
    (hv : ∀ a ∈ h.getD d [], a ≤ N) :
    let x := (h.getD d []).map (Mont.exportInt p)
    let after := fun (r : Rns.Res Heap) => (r.1.getD d []).map (Mont.exportInt p)
    (after (batchAdd p d d h) = x.map (fun v => 2 * v % N) ∧ (batchAdd p d d h).2 = .ok ()) ∧
    (after (batchSub p d d h) = x.map (fun _ => 0) ∧ (batchSub p d d h).2 = .ok ()) ∧
    (after (batchMul p d d h) = x.map (fun v => v ^ 2 % N) ∧ (batchMul p d d h).2 = .ok ()) ∧
    (after (batchFused p d d d h) = x.map (fun v => (v + v ^ 2) % N) ∧ (batchFused p d d d h).2 = .ok ()) := by
  have hz : ∀ (f : ℕ → ℕ → ℕ) (xs : List ℕ), List.zipWith f xs xs = xs.map fun a => f a a := by
    intro f xs
    induction xs <;> simp_all
  have hz3 : ∀ (f : ℕ → ℕ × ℕ → ℕ) (xs : List ℕ), List.zipWith f xs (xs.zip xs) = xs.map fun a => f a (a, a) := by
    intro f xs
    induction xs <;> simp_all
  simp only [batchAdd_eq p hd hd, batchSub_eq p hd hd, batchMul_eq p hd hd, batchFused_eq p hd hd hd, onVec,
    getD_set_self hd, Poly.addInPlace, Poly.subInPlace, Poly.mulInPlace, Poly.fusedMulAddInPlace, vec,
    ne_eq, not_true_eq_false, if_false, or_self, and_true, hz, hz3, List.map_map]
  refine ⟨?_, ?_, ?_, ?_⟩ <;> apply List.map_congr_left <;> intro a ha <;>
    obtain ⟨c1, c2, c3, _, c5, _⟩ := c03_arithmetic hc (hv a ha) (hv a ha) (hv a ha)
  · simp only [Function.comp, c1.2, two_mul]
  · have := c2.2
    simp only [sub_self, Int.zero_emod] at this
    simp only [Function.comp]
    exact_mod_cast this
  · simp only [Function.comp, c3.2, sq]
  · simp only [Function.comp, c5.2, sq]

/-- C77 for RNS polynomials. -/
theorem c77_rns_polynomial (ms : List Rns.Modulus) {h : Heap} {x a b : RObj} (hx : Stored h x.locs)
    (ha : ∀ l ∈ a.locs, l < h.length) (hb : ∀ l ∈ b.locs, l < h.length)
    (hxa : SameOrApart x.locs a.locs) (hxb : SameOrApart x.locs b.locs) :
    SameAs h x.locs (rnsAdd ms x a h) (x.val (rnsAdd ms x a h).1) (Rns.addIn ms (x.val h) (a.val h)) ∧
    SameAs h x.locs (rnsSub ms x a h) (x.val (rnsSub ms x a h).1) (Rns.subIn ms (x.val h) (a.val h)) ∧
    SameAs h x.locs (rnsMul ms x a h) (x.val (rnsMul ms x a h).1) (Rns.mulIn ms (x.val h) (a.val h)) ∧
    SameAs h x.locs (rnsFused ms x a b h) (x.val (rnsFused ms x a b h).1)
      (Rns.fusedMulAddIn ms (x.val h) (a.val h) (b.val h)) :=
  ⟨rnsAdd_acts hx ha hxa, rnsSub_acts hx ha hxa, rnsMul_acts hx ha hxa, rnsFused_acts hx ha hb hxa hxb⟩

/-- C77 for RNS ciphertexts: `ct.AddInPlace(ct)`, `ct.SubInPlace(ct)` and `ct.FusedAbsorbAddInPlace(ct, plaintext)`
included. -/
theorem c77_rns_ciphertext {h : Heap} {x y : CObj} {pt : RObj} (hx : Stored h x.locs)
    (hy : ∀ l ∈ y.locs, l < h.length) (hpt : ∀ l ∈ pt.locs, l < h.length) (hxy : CtSameOrApart x y)
    (hxp : ∀ l ∈ x.locs, l ∉ pt.locs) :
    SameAs h x.locs (ctAdd x y h) (x.val (ctAdd x y h).1) (Rns.RCt.addIn (x.val h) (y.val h)) ∧
    SameAs h x.locs (ctSub x y h) (x.val (ctSub x y h).1) (Rns.RCt.subIn (x.val h) (y.val h)) ∧
    SameAs h x.locs (ctFused x y pt h) (x.val (ctFused x y pt h).1)
      (Rns.RCt.fusedAbsorbAddIn (x.val h) (y.val h) (pt.val h)) :=
  ⟨ctAdd_acts hx hy hxy, ctSub_acts hx hy hxy, ctFused_acts hx hy hpt hxy hxp⟩

/-- C77 for symmetric-key ciphertexts; the object may get further components, which are new vectors. -/
theorem c77_symmetric {E : Type} [Add E] [Mul E] [Div E] [NatCast E] (p : MParams) {h : Heap} {x y : SObj E} (hx : Stored h x.c)
    (hy : ∀ l ∈ y.c, l < h.length) (hxy : SameOrApart x.c y.c) :
    (let r := symAdd p x y h
     let s := WordCt.addIn p (x.val h) (y.val h)
     r.1.2.val r.1.1 = s.1 ∧ r.2 = s.2 ∧ ∀ l < h.length, l ∉ x.c → r.1.1[l]? = h[l]?) ∧
    (let r := symSub p x y h
     let s := WordCt.subIn p (x.val h) (y.val h)
     r.1.2.val r.1.1 = s.1 ∧ r.2 = s.2 ∧ ∀ l < h.length, l ∉ x.c → r.1.1[l]? = h[l]?) :=
  ⟨symOp_acts (fun d a h hd ha => batchAdd_eq p hd ha) hx hy hxy,
   symOp_acts (fun d a h hd ha => batchSub_eq p hd ha) hx hy hxy⟩

/-- C77 for `uint256`: `a += b`, `a -= b` and `a *= b` leave the sum, difference and product of the values before,
also when `b` is the variable `a`; no other variable changes. -/
theorem c77_uint256 {h : Ints} {d b : ℕ} {x y : U256} (hx : h[d]? = some x) (hy : h[b]? = some y) :
    intAdd d b h = .ok (h.set d (U256.add x y)) ∧
    intSub d b h = .ok (h.set d (U256.sub x y)) ∧
    intMul d b h = .ok (h.set d (U256.mul x y)) :=
  ⟨intAdd_eq hx hy, intSub_eq hx hy, intMul_eq hx hy⟩

/-- C77 for multiplication by a scalar that is not a coefficient of the polynomial itself. -/
theorem c77_scalar_partial (p : MParams) {h : Heap} {d : ℕ} (hd : d < h.length) (c : ℕ) :
    (SameAs h [d] (batchMulScalar p d (.value c) h) ((batchMulScalar p d (.value c) h).1.getD d [])
      (vec (Poly.mulScalarInPlace p (h.getD d []) c))) ∧
    ∀ l k, l < h.length → d ≠ l → (h.getD l [])[k]? = some c →
      SameAs h [d] (batchMulScalar p d (.element l k) h) ((batchMulScalar p d (.element l k) h).1.getD d [])
        (vec (Poly.mulScalarInPlace p (h.getD d []) c)) := by
  have key : ∀ r : Rns.Res (List ℕ), SameAs h [d] (onVec h d r) ((onVec h d r).1.getD d []) r :=
    fun r => ⟨getD_set_self hd _, rfl, onVec_frame h d r⟩
  rw [batchMulScalar_value p d c hd]
  refine ⟨key _, fun l k hl hne hc => ?_⟩
  rw [batchMulScalar_other p hd hl hne hc]
  exact key _

/-- C77, what the multiplication by a coefficient of the polynomial itself does: the elements after that coefficient
are multiplied by its square. -/
theorem c77_scalar_self (p : MParams) {h : Heap} {d k c : ℕ} (hd : d < h.length)
    (hc : (h.getD d [])[k]? = some c) :
    SameAs h [d] (batchMulScalar p d (.element d k) h) ((batchMulScalar p d (.element d k) h).1.getD d [])
      (scalarAliased (Mont.mul p) (h.getD d []) k c, .ok ()) := by
  rw [batchMulScalar_self p hd hc]
  exact ⟨getD_set_self hd _, rfl, onVec_frame h d _⟩

/-- C77 fails for `p.MulInPlace(p.Coeffs()[k])`: for every accepted modulus above 2 there is a polynomial for which the call reports
success and does not leave the product by that coefficient. -/
theorem c77_scalar_violated {w N : ℕ} {p : MParams} (hc : create w N = .ok p) (hN : 2 < N) :
    ∃ (h : Heap) (c : ℕ), (∀ a ∈ h.getD 0 [], a < N) ∧ (h.getD 0 [])[0]? = some c ∧
      (batchMulScalar p 0 (.element 0 0) h).2 = .ok () ∧
      (batchMulScalar p 0 (.element 0 0) h).1.getD 0 [] ≠ (Poly.mulScalarInPlace p (h.getD 0 []) c).1 := by
  have hw : 2 < 2 ^ w := lt_of_lt_of_le (by omega : 2 < N) ((c02_create w N).1.1 ⟨p, hc⟩).2.le |>.trans_le
    (Nat.pow_le_pow_right (by norm_num) (by omega))
  obtain ⟨i1, i2⟩ := (c01_import_export hc).1 1 (by omega)
  obtain ⟨j1, j2⟩ := (c01_import_export hc).1 2 (by omega)
  set c := Mont.importInt p 2
  set u := Mont.importInt p 1
  refine ⟨[[c, u]], c, by simp [i2, j2], by simp, ?_, ?_⟩
  · rw [batchMulScalar_self p (by simp) (c := c) (by simp)]; rfl
  · rw [batchMulScalar_self p (by simp) (c := c) (by simp)]
    have m1 := (c03_arithmetic hc j2.le j2.le j2.le).2.2.1
    have m2 := (c03_arithmetic hc i2.le i2.le j2.le).2.2.1
    have m3 := (c03_arithmetic hc i2.le i2.le m1.1.le).2.2.1
    intro e
    simp only [onVec, scalarAliased, Poly.mulScalarInPlace, List.getD_eq_getElem?_getD, List.set_cons_zero,
      List.getElem?_cons_zero, Option.getD_some, List.mapIdx_cons, List.mapIdx_nil, List.map_cons, List.map_nil,
      List.cons.injEq, le_refl, if_true, Nat.zero_add, and_true, true_and, Nat.not_succ_le_zero, if_false] at e
    rw [if_neg (by omega)] at e
    have e' := congrArg (Mont.exportInt p) e
    rw [m3.2, m1.2, m2.2, i1, j1, Nat.mod_eq_of_lt hN, Nat.mod_eq_of_lt (by omega : 1 < N), one_mul, one_mul,
      Nat.mod_mod, Nat.mod_eq_of_lt hN] at e'
    rcases Nat.lt_or_ge 4 N with h4 | h4
    · rw [Nat.mod_eq_of_lt (by omega)] at e'; omega
    · interval_cases N <;> omega

/-! ### The hypotheses can be met -/

/-- Three vectors, a ciphertext with two components modulo one prime and a plaintext. -/
def aliasHeap : Heap := [[1, 2], [3, 4], [5, 6]]

example : Stored aliasHeap ((⟨[⟨1, [0], true⟩, ⟨1, [1], true⟩], [], 1⟩ : CObj)).locs ∧
    (∀ l ∈ (⟨1, [2], true⟩ : RObj).locs, l < aliasHeap.length) := by
  refine ⟨⟨by decide, by decide⟩, by decide⟩

/-- `x.AddInPlace(x)` and `x.MulInPlace(x)` on a polynomial with the residues 3 and 4 modulo 12289. -/
example :
    let p := exParams
    let h : Heap := [[Mont.importInt p 3, Mont.importInt p 4]]
    ((batchAdd p 0 0 h).1.getD 0 []).map (Mont.exportInt p) = [6, 8] ∧
    ((batchMul p 0 0 h).1.getD 0 []).map (Mont.exportInt p) = [9, 16] ∧
    ((batchMulScalar p 0 (.element 0 0) h).1.getD 0 []).map (Mont.exportInt p) = [9, 36] := by
  decide +kernel

end Shell
