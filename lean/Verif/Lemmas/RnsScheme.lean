import Verif.Spec.RnsScheme
import Verif.Lemmas.NegRing
import Verif.Lemmas.RnsCreate
import Verif.Lemmas.RnsReduce
import Verif.Lemmas.Rlwe
/-! Lemmas about RNS ciphertexts. -/

namespace Shell.Rns
open Finset Spec NttRing
variable {w l : ℕ} {ms : List Modulus}

/-! ### Inner products -/

theorem innerProduct_eq {n : ℕ} [NeZero n] (S : Fin n → ℤ) (Cs : List (Fin n → ℤ)) :
    innerProduct S Cs = phase (NR.mk S) (Cs : List (NR n)) := by
  induction Cs with
  | nil => rfl
  | cons c Cs ih => rw [innerProduct, ih]; exact (phase_cons (NR.mk S) (NR.mk c) Cs).symm

section
variable {n : ℕ} [NeZero n] (S : Fin n → ℤ)

theorem innerProduct_zip (f : (Fin n → ℤ) → (Fin n → ℤ) → Fin n → ℤ)
    (hf : ∀ a b u x y, f (a + negMul u x) (b + negMul u y) = f a b + negMul u (f x y)) (h0 : f 0 0 = 0) :
    ∀ Cs Ds : List (Fin n → ℤ), Cs.length = Ds.length →
      innerProduct S (List.zipWith f Cs Ds) = f (innerProduct S Cs) (innerProduct S Ds) := by
  intro Cs
  induction Cs with
  | nil => intro Ds h; cases Ds with
    | nil => exact h0.symm
    | cons _ _ => simp at h
  | cons c Cs ih =>
    intro Ds h
    cases Ds with
    | nil => simp at h
    | cons d Ds =>
      rw [List.zipWith_cons_cons, innerProduct, ih Ds (by simpa using h)]
      exact (hf c d S _ _).symm

theorem innerProduct_map (f : (Fin n → ℤ) → Fin n → ℤ)
    (hf : ∀ a u x, f (a + negMul u x) = f a + negMul u (f x)) (h0 : f 0 = 0) (Cs : List (Fin n → ℤ)) : innerProduct S (Cs.map f) = f (innerProduct S Cs) := by
  induction Cs with
  | nil => exact h0.symm
  | cons c Cs ih =>
    rw [List.map_cons, innerProduct, ih]
    exact (hf c S _).symm

end

/-! ### Congruences -/

section
variable {n Q : ℕ} {F G H F' G' : Fin n → ℤ}

theorem congMod_iff : CongMod Q F G ↔ modq Q F = modq Q G := by
  constructor
  · intro h
    funext i
    have := h i
    unfold modq
    rw [eq_comm, ZMod.intCast_eq_intCast_iff_dvd_sub]
    exact this
  · intro h i
    have := congrFun h i
    unfold modq at this
    rwa [eq_comm, ZMod.intCast_eq_intCast_iff_dvd_sub] at this

theorem _root_.Shell.Spec.CongMod.refl (F : Fin n → ℤ) : CongMod Q F F := fun i => by simp

theorem _root_.Shell.Spec.CongMod.symm (h : CongMod Q F G) : CongMod Q G F := congMod_iff.mpr (congMod_iff.mp h).symm

theorem _root_.Shell.Spec.CongMod.trans (h : CongMod Q F G) (h' : CongMod Q G H) : CongMod Q F H :=
  congMod_iff.mpr ((congMod_iff.mp h).trans (congMod_iff.mp h'))

theorem _root_.Shell.Spec.CongMod.add (h : CongMod Q F G) (h' : CongMod Q F' G') : CongMod Q (F + F') (G + G') :=
  fun i => by
    have := dvd_add (h i) (h' i)
    simp only [Pi.add_apply]
    rwa [show F i + F' i - (G i + G' i) = F i - G i + (F' i - G' i) by ring]

theorem _root_.Shell.Spec.CongMod.sub (h : CongMod Q F G) (h' : CongMod Q F' G') : CongMod Q (F - F') (G - G') :=
  fun i => by
    have := dvd_sub (h i) (h' i)
    simp only [Pi.sub_apply]
    rwa [show F i - F' i - (G i - G' i) = F i - G i - (F' i - G' i) by ring]

theorem _root_.Shell.Spec.CongMod.neg (h : CongMod Q F G) : CongMod Q (-F) (-G) := fun i => by
  have := (dvd_neg.mpr (h i))
  simp only [Pi.neg_apply]
  rwa [show -F i - -G i = -(F i - G i) by ring]

theorem _root_.Shell.Spec.CongMod.smul (z : ℤ) (h : CongMod Q F G) :
    CongMod Q (fun i => z * F i) (fun i => z * G i) := fun i => by
  have := (h i).mul_left z
  rwa [← mul_sub]

theorem _root_.Shell.Spec.CongMod.mul (h : CongMod Q F G) (h' : CongMod Q F' G') :
    CongMod Q (negMul F F') (negMul G G') := by
  rw [congMod_iff] at *
  rw [modq_negMul, modq_negMul, h, h']

theorem _root_.Shell.Spec.CongMod.subst (k : ℕ) (h : CongMod Q F G) : CongMod Q (substPow k F) (substPow k G) := by
  rw [congMod_iff] at *
  rw [modq_substPow, modq_substPow, h]

theorem _root_.Shell.Spec.CongMod.of_dvd {Q' : ℕ} (hd : Q' ∣ Q) (h : CongMod Q F G) : CongMod Q' F G := fun i =>
  (Int.natCast_dvd_natCast.mpr hd).trans (h i)

end

theorem coeffsAre_congr {m : Modulus} {n : ℕ} {v : List ℕ} {F G : Fin n → ℤ} (h : CoeffsAre m n v F)
    (hc : CongMod m.N F G) : CoeffsAre m n v G := by
  refine ⟨h.1, h.2.1, fun i => ?_⟩
  rw [h.2.2 i]
  exact Int.emod_eq_emod_iff_emod_sub_eq_zero.mpr (Int.emod_eq_zero_of_dvd (hc i))

theorem holds_congr {m : Modulus} {b : Bool} {v : List ℕ} {F G : Fin (2 ^ l) → ℤ} (h : Holds l m b v F)
    (hc : CongMod m.N F G) : Holds l m b v G := by
  unfold Holds at *
  split_ifs at * with hb
  · obtain ⟨h1, h2, r, h3, h4⟩ := h
    exact ⟨h1, h2, r, h3, coeffsAre_congr h4 hc⟩
  · exact coeffsAre_congr h hc

theorem N_dvd_prod {m : Modulus} (hm : m ∈ ms) : m.N ∣ modulusProd ms :=
  List.dvd_prod (List.mem_map.mpr ⟨m, hm, rfl⟩)

theorem repr_congr {X : RPoly} {F G : Fin (2 ^ l) → ℤ} (h : Represents l ms X F)
    (hc : CongMod (modulusProd ms) F G) : Represents l ms X G := by
  refine ⟨h.1, ?_⟩
  have h2 := h.2
  have : ∀ {ms' : List Modulus} {vs : List (List ℕ)}, (∀ m ∈ ms', m ∈ ms) →
      List.Forall₂ (fun m v => Holds l m X.ntt v F) ms' vs →
      List.Forall₂ (fun m v => Holds l m X.ntt v G) ms' vs := by
    intro ms' vs hs hf
    induction hf with
    | nil => exact .nil
    | cons hp _ ih =>
      exact .cons (holds_congr hp (hc.of_dvd (N_dvd_prod (hs _ (by simp)))))
        (ih fun m hm => hs m (by simp [hm]))
  exact this (fun m hm => hm) h2

/-! ### Lists -/

theorem mapM_rel {α β γ δ : Type} {f : α → Outcome β} {P : α → γ → Prop} {R : β → δ → Prop} {g : γ → δ}
    (h : ∀ a c, P a c → ∃ b, f a = .ok b ∧ R b (g c)) : ∀ {L : List α} {Cs : List γ},
    List.Forall₂ P L Cs → ∃ r, L.mapM f = .ok r ∧ List.Forall₂ R r (Cs.map g) := by
  intro L Cs hf
  induction hf with
  | nil => exact ⟨[], rfl, .nil⟩
  | cons hp _ ih =>
    obtain ⟨b, h1, h2⟩ := h _ _ hp
    obtain ⟨r, h3, h4⟩ := ih
    refine ⟨b :: r, ?_, .cons h2 h4⟩
    rw [List.mapM_cons, h1, Outcome.bind_ok, h3]; rfl

theorem mapM_rel₂ {α α' β γ γ' δ : Type} {f : α × α' → Outcome β} {P : α → γ → Prop} {P' : α' → γ' → Prop}
    {R : β → δ → Prop} {g : γ → γ' → δ}
    (h : ∀ a a' c c', P a c → P' a' c' → ∃ b, f (a, a') = .ok b ∧ R b (g c c')) :
    ∀ {L : List α} {Cs : List γ} {L' : List α'} {Cs' : List γ'},
    List.Forall₂ P L Cs → List.Forall₂ P' L' Cs' → L.length = L'.length →
    ∃ r, (L.zip L').mapM f = .ok r ∧ List.Forall₂ R r (List.zipWith g Cs Cs') := by
  intro L Cs L' Cs' hf
  induction hf generalizing L' Cs' with
  | nil => intro hf' hl; cases hf' with
    | nil => exact ⟨[], rfl, .nil⟩
    | cons _ _ => simp at hl
  | cons hp _ ih =>
    intro hf' hl
    cases hf' with
    | nil => simp at hl
    | cons hp' hf' =>
      obtain ⟨b, h1, h2⟩ := h _ _ _ _ hp hp'
      obtain ⟨r, h3, h4⟩ := ih hf' (by simpa using hl)
      refine ⟨b :: r, ?_, .cons h2 h4⟩
      rw [List.zip_cons_cons, List.mapM_cons, h1, Outcome.bind_ok, h3]; rfl

theorem forall₂_set {α β : Type} {P : α → β → Prop} : ∀ {L : List α} {M : List β} {k : ℕ} {a : α} {b : β},
    List.Forall₂ P L M → P a b → List.Forall₂ P (L.set k a) (M.set k b) := by
  intro L M k a b h hp
  induction h generalizing k with
  | nil => exact .nil
  | cons h1 h2 ih =>
    cases k with
    | zero => exact .cons hp h2
    | succ k => exact .cons h1 ih

theorem forall₂_rd {α β : Type} {P : α → β → Prop} (d : β) : ∀ {L : List α} {M : List β} {k : ℕ},
    List.Forall₂ P L M → k < L.length → ∃ a, rd L k = .ok a ∧ P a (M.getD k d) := by
  intro L M k h
  induction h generalizing k with
  | nil => intro hk; simp at hk
  | cons h1 _ ih =>
    intro hk
    cases k with
    | zero => exact ⟨_, rfl, by simpa using h1⟩
    | succ k =>
      obtain ⟨a, e1, e2⟩ := ih (k := k) (by simpa using hk)
      refine ⟨a, ?_, by simpa using e2⟩
      unfold rd at *
      simpa using e1

theorem forall₂_replicate {α β : Type} {P : α → β → Prop} {a : α} {b : β} (h : P a b) (k : ℕ) :
    List.Forall₂ P (List.replicate k a) (List.replicate k b) := by
  induction k with
  | zero => exact .nil
  | succ k ih => exact .cons h ih

/-! ### The tensor product -/

/-- In NTT form, representing `C`. -/
def Comp (l : ℕ) (ms : List Modulus) (c : RPoly) (C : Fin (2 ^ l) → ℤ) : Prop :=
  c.ntt = true ∧ Represents l ms c C

/-- The inner loop of the tensor product on integer polynomials. -/
def zinner {n : ℕ} [NeZero n] (u : NR n) (Ys : List (NR n)) (i : ℕ) (Z : List (NR n)) : ℕ → List (NR n)
  | 0 => Z
  | j + 1 => (zinner u Ys i Z j).set (i + j) ((zinner u Ys i Z j).getD (i + j) 0 + u * Ys.getD j 0)

/-- The outer loop. -/
def zouter {n : ℕ} [NeZero n] (Xs Ys Z : List (NR n)) : ℕ → List (NR n)
  | 0 => Z
  | i + 1 => zinner (Xs.getD i 0) Ys i (zouter Xs Ys Z i) Ys.length

/-- The tensor product of integer polynomials; the same for all moduli. -/
def ztensor {n : ℕ} [NeZero n] (Xs Ys Z : List (NR n)) : List (NR n) := zouter Xs Ys Z Xs.length

theorem tensor_ok' (hg : ∀ m ∈ ms, GoodModulus w l m) {xs ys rs : List RPoly} {Xs Ys Rs : List (NR (2 ^ l))}
    (hx : List.Forall₂ (Comp l ms) xs Xs) (hy : List.Forall₂ (Comp l ms) ys Ys)
    (hr : List.Forall₂ (Comp l ms) rs Rs) (hlen : rs.length = xs.length + ys.length - 1) :
    ∃ r, RCt.tensor ms xs ys rs = .ok r ∧ List.Forall₂ (Comp l ms) r (ztensor Xs Ys Rs) ∧
      r.length = rs.length ∧
      ∀ s : NR (2 ^ l), phase s (ztensor Xs Ys Rs) = phase s Rs + phase s Xs * phase s Ys := by
  have hX := hx.length_eq
  have hY := hy.length_eq
  obtain ⟨r, e1, Zs, e0, e2, e3, e4⟩ := loop_ok (f := fun i r => loop ys.length (fun j r => do
      let t ← rd r (i + j)
      let u ← rd xs i
      let v ← rd ys j
      let t ← Rns.fusedMulAdd ms t u v
      wr r (i + j) t) r) (s := rs) (n := xs.length)
    (fun i r => ∃ Zs : List (NR (2 ^ l)), Zs = zouter Xs Ys Rs i ∧ List.Forall₂ (Comp l ms) r Zs ∧ r.length = rs.length ∧
      ∀ s, phase s Zs = phase s Rs + (∑ k ∈ range i, Xs.getD k 0 * s ^ k) * phase s Ys)
    ⟨Rs, rfl, hr, rfl, fun s => by simp⟩ (by
    rintro i r hi ⟨Zs, e0, e2, e3, e4⟩
    obtain ⟨r', f1, Zs', f0, f2, f3, f4⟩ := loop_ok (f := fun j r => do
        let t ← rd r (i + j)
        let u ← rd xs i
        let v ← rd ys j
        let t ← Rns.fusedMulAdd ms t u v
        wr r (i + j) t) (s := r) (n := ys.length)
      (fun j r' => ∃ Zs' : List (NR (2 ^ l)), Zs' = zinner (Xs.getD i 0) Ys i Zs j ∧ List.Forall₂ (Comp l ms) r' Zs' ∧ r'.length = rs.length ∧
        ∀ s, phase s Zs' = phase s Zs + Xs.getD i 0 * s ^ i * ∑ k ∈ range j, Ys.getD k 0 * s ^ k)
      ⟨Zs, rfl, e2, e3, fun s => by simp⟩ (by
      rintro j r' hj ⟨Zs', g0, g2, g3, g4⟩
      have hk : i + j < r'.length := by omega
      have hk' : i + j < Zs'.length := g2.length_eq ▸ hk
      obtain ⟨t, t1, t2, t3⟩ := forall₂_rd 0 g2 hk
      obtain ⟨u, u1, u2, u3⟩ := forall₂_rd 0 hx hi
      obtain ⟨v, v1, v2, v3⟩ := forall₂_rd 0 hy hj
      obtain ⟨z, z1, z2, z3⟩ := repr_fusedMulAdd hg t3 u3 v3 t2 u2 v2
      refine ⟨r'.set (i + j) z, ?_, Zs'.set (i + j) (Zs'.getD (i + j) 0 + Xs.getD i 0 * Ys.getD j 0),
        by rw [g0]; rfl, forall₂_set g2 ⟨z2, z3⟩, by simpa using g3, fun s => ?_⟩
      · rw [t1, Outcome.bind_ok, u1, Outcome.bind_ok, v1, Outcome.bind_ok, z1, Outcome.bind_ok, wr_ok hk]
      · rw [phase_set s Zs' hk', g4 s, sum_range_succ]
        ring)
    refine ⟨r', f1, Zs', by rw [f0, e0, hY]; rfl, f2, f3, fun s => ?_⟩
    rw [f4 s, e4 s, sum_range_succ, phase_eq s Ys (m := ys.length) hY.symm.le]
    ring)
  have e5 : ztensor Xs Ys Rs = Zs := by rw [e0, ztensor, hX]; rfl
  rw [e5]
  refine ⟨r, e1, e2, e3, fun s => ?_⟩
  rw [e4 s, phase_eq s Xs (m := xs.length) hX.symm.le]

theorem tensor_ok (hg : ∀ m ∈ ms, GoodModulus w l m) {xs ys rs : List RPoly} {Xs Ys Rs : List (NR (2 ^ l))}
    (hx : List.Forall₂ (Comp l ms) xs Xs) (hy : List.Forall₂ (Comp l ms) ys Ys)
    (hr : List.Forall₂ (Comp l ms) rs Rs) (hlen : rs.length = xs.length + ys.length - 1) :
    ∃ r Zs, RCt.tensor ms xs ys rs = .ok r ∧ List.Forall₂ (Comp l ms) r Zs ∧ r.length = rs.length ∧
      ∀ s : NR (2 ^ l), phase s Zs = phase s Rs + phase s Xs * phase s Ys := by
  obtain ⟨r, h1, h2, h3, h4⟩ := tensor_ok' hg hx hy hr hlen
  exact ⟨r, _, h1, h2, h3, h4⟩

end Shell.Rns
