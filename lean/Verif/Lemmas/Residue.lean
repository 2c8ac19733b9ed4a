import Verif.Lemmas.MontInverse
/-!
The residue of a stored word, as an element of `ZMod N`: `res p N a = a · R⁻¹`.  For stored words up
to the modulus it is the exported value; it is also meaningful for the lazily reduced words inside
the transforms.
-/

namespace Shell
variable {p : MParams} {w N : ℕ}

/-- Residue of a stored word. -/
def res (p : MParams) (N : ℕ) (a : ℕ) : ZMod N := (a : ZMod N) * p.invR

theorem res_export (g : Good p w N) {a : ℕ} (ha : a ≤ N) :
    ((p.exportInt a : ℕ) : ZMod N) = res p N a := g.cast_export' a ha

theorem export_eq_val (g : Good p w N) {a : ℕ} (ha : a ≤ N) :
    p.exportInt a = (res p N a).val := by
  have h4 := g.lt
  haveI : NeZero N := ⟨by have := g.pos; omega⟩
  rw [← res_export g ha, ZMod.val_natCast,
    Nat.mod_eq_of_lt (exportInt_lt g a (by omega) (Or.inr ha))]

theorem res_inj (g : Good p w N) {a b : ℕ} (ha : a < N) (hb : b < N)
    (h : res p N a = res p N b) : a = b := by
  apply g.export_inj ha hb
  rw [export_eq_val g ha.le, export_eq_val g hb.le, h]

theorem res_mod (a : ℕ) : res p N (a % N) = res p N a := by
  unfold res; rw [ZMod.natCast_mod]

theorem res_zero : res p N 0 = 0 := by simp [res]

theorem res_one (g : Good p w N) : res p N (Mont.importOne p) = 1 := by
  rw [← res_export g (importOne_lt g).le, export_importOne g]
  rw [ZMod.natCast_mod]; simp

theorem res_import (g : Good p w N) {n : ℕ} (hn : n < 2 ^ w) :
    res p N (Mont.importInt p n) = n := by
  rw [← res_export g (importInt_lt g n hn).le, export_import g n hn, ZMod.natCast_mod]

theorem res_add (g : Good p w N) {a b : ℕ} (h : a + b < 2 ^ w) :
    res p N (Mont.add p a b) = res p N a + res p N b := by
  rw [add_eq g h, res_mod]; unfold res; push_cast; ring

theorem add_lt (g : Good p w N) {a b : ℕ} (h : a + b < 2 ^ w) : Mont.add p a b < N := by
  rw [add_eq g h]; exact Nat.mod_lt _ g.pos

theorem res_sub (g : Good p w N) {a b : ℕ} (hb : b ≤ N) (h : a + (N - b) < 2 ^ w) :
    res p N (Mont.sub p a b) = res p N a - res p N b := by
  rw [sub_eq g hb h, res_mod]; unfold res
  rw [Nat.cast_add, cast_sub_le hb]; ring

theorem sub_lt (g : Good p w N) {a b : ℕ} (hb : b ≤ N) (h : a + (N - b) < 2 ^ w) :
    Mont.sub p a b < N := by
  rw [sub_eq g hb h]; exact Nat.mod_lt _ g.pos

theorem lazyAdd_eq (g : Good p w N) {a b : ℕ} (h : a + b < 2 ^ w) :
    Mont.lazyAdd p a b = a + b := by
  unfold Mont.lazyAdd; rw [g.hw, trunc_eq w _ (a + b) (by push_cast; ring) h]

theorem lazySub_eq (g : Good p w N) {a b : ℕ} (hb : b ≤ N) (h : a + (N - b) < 2 ^ w) :
    Mont.lazySub p a b = a + (N - b) := by
  unfold Mont.lazySub; rw [g.hw, g.hN, trunc_eq w _ (a + (N - b)) (by push_cast [hb]; ring) h]

theorem res_lazyAdd (g : Good p w N) {a b : ℕ} (h : a + b < 2 ^ w) :
    res p N (Mont.lazyAdd p a b) = res p N a + res p N b := by
  rw [lazyAdd_eq g h]; unfold res; push_cast; ring

theorem res_lazySub (g : Good p w N) {a b : ℕ} (hb : b ≤ N) (h : a + (N - b) < 2 ^ w) :
    res p N (Mont.lazySub p a b) = res p N a - res p N b := by
  rw [lazySub_eq g hb h]; unfold res
  rw [Nat.cast_add, cast_sub_le hb]; ring

theorem negate_eq (g : Good p w N) {a : ℕ} (ha : a ≤ N) : Mont.negate p a = N - a := by
  have h4 := g.lt
  unfold Mont.negate
  rw [g.hw, g.hN, trunc_eq w _ (N - a) (by omega) (by omega)]

theorem res_negate (g : Good p w N) {a : ℕ} (ha : a ≤ N) :
    res p N (Mont.negate p a) = - res p N a := by
  rw [negate_eq g ha]; unfold res; rw [cast_sub_le ha]; ring

theorem negate_le (g : Good p w N) {a : ℕ} (ha : a ≤ N) : Mont.negate p a ≤ N := by
  rw [negate_eq g ha]; omega

theorem res_mul (g : Good p w N) {a b : ℕ} (ha : a ≤ N) (hb : b ≤ N) :
    res p N (Mont.mul p a b) = res p N a * res p N b := by
  rw [← res_export g (mul_lt g ha hb).le, mul_export g ha hb, ZMod.natCast_mod, Nat.cast_mul,
    res_export g ha, res_export g hb]

theorem mulConstant_lt (g : Good p w N) {a c : ℕ} (ha : a < 2 ^ w) (hc : c ≤ N) :
    Mont.mulConstant p a (Mont.getConstant p c).1 (Mont.getConstant p c).2 < N := by
  have h4 := g.lt
  rw [getConstant_eq g hc, mulConstant_eq g ha (exportInt_lt g c (by omega) (Or.inr hc))]
  exact Nat.mod_lt _ g.pos

theorem res_mulConstant (g : Good p w N) {a c : ℕ} (ha : a < 2 ^ w) (hc : c ≤ N) :
    res p N (Mont.mulConstant p a (Mont.getConstant p c).1 (Mont.getConstant p c).2) =
      res p N a * res p N c := by
  have h4 := g.lt
  rw [getConstant_eq g hc, mulConstant_eq g ha (exportInt_lt g c (by omega) (Or.inr hc)), res_mod,
    ← res_export g hc]
  unfold res; push_cast; ring

theorem res_fusedMulAdd (g : Good p w N) {s a b : ℕ} (hs : s ≤ N) (ha : a ≤ N) (hb : b ≤ N) :
    res p N (Mont.fusedMulAdd p s a b) = res p N s + res p N a * res p N b := by
  rw [← res_export g (fusedMulAdd_core g hs ha hb).1.le, fusedMulAdd_export g hs ha hb,
    ZMod.natCast_mod, Nat.cast_add, Nat.cast_mul, res_export g ha, res_export g hb, res_export g hs]

theorem res_fusedMulConstantAdd (g : Good p w N) {s a b : ℕ} (hs : s ≤ N) (ha : a ≤ N)
    (hb : b ≤ N) :
    res p N (Mont.fusedMulConstantAdd p s a (Mont.getConstant p b).1 (Mont.getConstant p b).2) =
      res p N s + res p N a * res p N b := by
  obtain ⟨h1, h2⟩ := fusedMulConstantAdd_export g hs ha hb
  rw [← res_export g h1.le, h2,
    ZMod.natCast_mod, Nat.cast_add, Nat.cast_mul, res_export g ha, res_export g hb, res_export g hs]

theorem res_modExp (g : Good p w N) {a : ℕ} (e : ℕ) (ha : a ≤ N) :
    res p N (Mont.modExp p a e) = res p N a ^ e := by
  obtain ⟨h1, h2⟩ := modExp_spec g a e ha
  rw [← res_export g h1.le, h2, ZMod.natCast_mod, Nat.cast_pow, res_export g ha]

theorem modExp_lt (g : Good p w N) {a : ℕ} (e : ℕ) (ha : a ≤ N) : Mont.modExp p a e < N :=
  (modExp_spec g a e ha).1

theorem res_multiplicativeInverse (g : Good p w N) (hp : N.Prime) {a : ℕ} (ha : a ≤ N)
    (hne : res p N a ≠ 0) :
    Mont.multiplicativeInverse p a < N ∧
      res p N a * res p N (Mont.multiplicativeInverse p a) = 1 := by
  have hne' : p.exportInt a ≠ 0 := by
    intro h; apply hne; rw [← res_export g ha, h]; simp
  obtain ⟨h1, h2⟩ := multiplicativeInverse_spec g hp a ha hne'
  refine ⟨h1, ?_⟩
  rw [← res_export g ha, ← res_export g h1.le, ← Nat.cast_mul, ← ZMod.natCast_mod, h2, Nat.cast_one]

end Shell
