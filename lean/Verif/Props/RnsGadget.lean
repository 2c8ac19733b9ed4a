import Verif.Lemmas.RnsGadget
import Verif.Props.RnsContext
import Verif.Props.RnsSchemeExample
import Mathlib.Data.Nat.Size
/-!
# C51: gadget decomposition of RNS polynomials
-/

namespace Shell
open Spec Rns

theorem logModulus_size {w N : ℕ} {p : MParams} (h : MParams.create w N = .ok p) (hw : w ≤ 128) :
    p.logModulus = Nat.size N := by
  obtain ⟨l1, l2, _, _, l5⟩ := logModulus_facts h hw
  have h1 : Nat.size N ≤ p.logModulus := Nat.size_le.mpr l1
  have h2 : p.logModulus - 1 < Nat.size N := by
    rw [Nat.lt_size]
    have e : 2 ^ p.logModulus = 2 * 2 ^ (p.logModulus - 1) := by
      rw [← pow_succ']; congr 1; omega
    omega
  omega

theorem rows_of {w l : ℕ} {Q : ℕ} (hw : w ≤ 128) : ∀ {ms : List Modulus} {logBs hats hatInvs : List ℕ},
    (∀ m ∈ ms, GoodModulus w l m) → logBs.length = ms.length → (∀ b ∈ logBs, 0 < b ∧ b < 31 ∧ b < w) →
    List.Forall₂ (fun m x => x ≤ m.N ∧ (Mont.exportInt m.p x : ℤ) = ((Q / m.N : ℕ) : ℤ) % m.N) ms hats →
    List.Forall₂ (fun m a => a ≤ m.N ∧ (m.N : ℤ) ∣ Mont.exportInt m.p a * (Q / m.N : ℕ) - 1) ms hatInvs →
    Rows (RowOk w Q) ms logBs (List.zipWith (fun m b => (Nat.size m.N + (b - 1)) / b) ms logBs) hats hatInvs := by
  intro ms
  induction ms with
  | nil =>
    intro logBs hats hatInvs _ h1 _ h2 h3
    cases h2
    cases h3
    obtain rfl := List.length_eq_zero_iff.mp h1
    exact .nil
  | cons m ms ih =>
    intro logBs hats hatInvs hg h1 hb h2 h3
    cases h2 with
    | cons h2 h2' =>
      cases h3 with
      | cons h3 h3' =>
        cases logBs with
        | nil => simp at h1
        | cons b logBs =>
          obtain ⟨b1, b2, b3⟩ := hb b List.mem_cons_self
          have hm := hg m List.mem_cons_self
          have hs := logModulus_size hm.create hw
          refine .cons ⟨b1, b2, b3, ?_, ?_, h2, h3⟩ (ih (fun x hx => hg x (List.mem_cons_of_mem _ hx))
            (by simpa using h1) (fun x hx => hb x (List.mem_cons_of_mem _ hx)) h2' h3')
          · unfold Gadget.gadgetSize
            rw [if_neg (by omega), hs]
          · exact (gadget_fits b1 (Nat.lt_size_self _)).le

/-- **C51.** For all distinct prime moduli and bases `2^b` with `0 < b < 31`, `Create` with the complements
and their inverses returns a gadget with `⌈log q_i / b_i⌉` digits for the `i`-th modulus whose components are
integers `Gs`, and `Decompose` of every polynomial returns digits below their bases in absolute value whose
combination with `Gs` is the polynomial modulo `Q`. -/
theorem c51_gadget {w l : ℕ} {ms : List Modulus} {logBs hats hatInvs : List ℕ} (hw : w ≤ 128) (hl : 0 < l)
    (hne : ms ≠ []) (hg : ∀ m ∈ ms, GoodModulus w l m) (hnd : (ms.map (·.N)).Nodup)
    (hlen : logBs.length = ms.length) (hb : ∀ b ∈ logBs, 0 < b ∧ b < 31 ∧ b < w)
    (hh : List.Forall₂ (fun m x => x ≤ m.N ∧
      (Mont.exportInt m.p x : ℤ) = ((modulusProd ms / m.N : ℕ) : ℤ) % m.N) ms hats)
    (hi : HatInvs ms hatInvs) :
    ∃ g Gs, RGadget.create l logBs hats hatInvs ms = .ok g ∧
      g.dims = List.zipWith (fun m b => (Nat.size m.N + (b - 1)) / b) ms logBs ∧
      GadgetFor l ms g Gs (digitLogs logBs g.dims) := by
  obtain ⟨g, g1, g2, g3, g4⟩ := gadgetFor_of_rows hg hnd hl hne (rows_of hw hg hlen hb hh hi)
    hh.length_eq.symm hi.length_eq.symm
  exact ⟨g, _, g1, g3, g3 ▸ g4⟩

/-- **C51.** In particular a gadget can be made from the constants of a context at every level. -/
theorem c51_context {w l : ℕ} {c : Rns.Ctx} (hc : GoodCtx w l c) (hw : w ≤ 128) (hl : 0 < l) {level : ℕ}
    (hlev : level < c.qs.length) {logBs : List ℕ} (hlen : logBs.length = level + 1)
    (hb : ∀ b ∈ logBs, 0 < b ∧ b < 31 ∧ b < w) :
    ∃ hats hatInvs g Gs, c.complements level = .ok hats ∧ c.crtFactors level = .ok hatInvs ∧
      RGadget.create l logBs hats hatInvs (c.qs.take (level + 1)) = .ok g ∧
      g.dims = List.zipWith (fun m b => (Nat.size m.N + (b - 1)) / b) (c.qs.take (level + 1)) logBs ∧
      GadgetFor l (c.qs.take (level + 1)) g Gs (digitLogs logBs g.dims) := by
  obtain ⟨a, a1, a2⟩ := hc.residues.complements level hlev
  obtain ⟨v, v1, v2⟩ := hc.inverses.crtFactors level hlev
  have hln : (c.qs.take (level + 1)).length = level + 1 := by rw [List.length_take]; omega
  have hnd : ((c.qs.take (level + 1)).map (·.N)).Nodup := by
    rw [List.map_take]
    exact (List.nodup_append.mp hc.nodup).1.sublist (List.take_sublist _ _)
  obtain ⟨g, Gs, g1, g2, g3⟩ := c51_gadget hw hl (ms := c.qs.take (level + 1))
    (by intro h; rw [h] at hln; simp at hln) (fun m hm => hc.qs m (List.mem_of_mem_take hm)) hnd
    (by omega) hb a2 v2
  exact ⟨a, v, g, Gs, a1, v1, g1, g2, g3⟩

/-- `Decompose` of several polynomials decomposes each. -/
theorem c51_decomposeAll {l : ℕ} {ms : List Modulus} {g : RGadget} {Gs : List ℤ} {logs : List ℕ}
    (h : GadgetFor l ms g Gs logs) {as : List RPoly} {Fs : List (Fin (2 ^ l) → ℤ)}
    (ha : List.Forall₂ (fun a F => a.ntt = false ∧ Represents l ms a F) as Fs) :
    ∃ xss, g.decomposeAll as ms = .ok xss ∧ List.Forall₂ (fun xs F => ∃ Ds : List (Fin (2 ^ l) → ℤ),
      List.Forall₂ (fun x D => x.ntt = false ∧ Represents l ms x D) xs Ds ∧
      List.Forall₂ (fun b D => ∀ i, |D i| < 2 ^ b) logs Ds ∧
      CongMod (modulusProd ms) (combine Gs Ds) F) xss Fs := by
  obtain ⟨r, r1, r2⟩ := mapM_rel (f := fun a => g.decompose a ms) (g := fun F => F) (fun a F ⟨h1, h2⟩ => by
    obtain ⟨xs, Ds, x1, x2, x3, _, x5⟩ := h.decompose a F h1 h2
    exact ⟨xs, x1, (⟨Ds, x2, x3, x5⟩ : ∃ Ds : List (Fin (2 ^ l) → ℤ),
      List.Forall₂ (fun x D => x.ntt = false ∧ Represents l ms x D) xs Ds ∧
      List.Forall₂ (fun b D => ∀ i, |D i| < 2 ^ b) logs Ds ∧
      CongMod (modulusProd ms) (combine Gs Ds) F)⟩) ha
  rw [List.map_id'] at r2
  exact ⟨r, r1, r2⟩

/-- **C51.** `Create` rejects lists of the wrong length and an empty list of moduli. -/
theorem c51_create_rejects (logN : ℤ) (logBs hats hatInvs : List ℕ) (ms : List Modulus)
    (h : logN ≤ 0 ∨ ms = [] ∨ logBs.length ≠ ms.length ∨ hats.length ≠ ms.length ∨
      hatInvs.length ≠ ms.length) :
    RGadget.create logN logBs hats hatInvs ms = .err .invalidArgument := by
  unfold RGadget.create
  split_ifs with h1 h2 h3 h4 h5
  all_goals first
    | rfl
    | (exfalso; rcases h with h | h | h | h | h
       · omega
       · subst h; exact h2 rfl
       · exact h3 h
       · exact h4 h
       · exact h5 h)

/-- **C51.** `Decompose` rejects polynomials in NTT form and with another number of moduli. -/
theorem c51_decompose_rejects (g : RGadget) (a : RPoly) (ms : List Modulus)
    (h : a.ntt = true ∨ a.coeffs.length ≠ ms.length) : g.decompose a ms = .err .invalidArgument := by
  unfold RGadget.decompose
  rcases h with h | h
  · rw [if_pos h]
  · split_ifs
    · rfl
    · rfl

theorem gadgetBases_ub {w l : ℕ} : ∀ {ms : List Modulus} {logBs : List ℕ}, (∀ m ∈ ms, GoodModulus w l m) →
    logBs.length = ms.length → (∃ b ∈ logBs, 31 ≤ b) → (∀ b ∈ logBs, 0 < b) →
    gadgetBases ms logBs = .ub .badShift := by
  intro ms
  induction ms with
  | nil =>
    intro logBs _ h ⟨b, hb, _⟩ _
    obtain rfl := List.length_eq_zero_iff.mp h
    simp at hb
  | cons m ms ih =>
    intro logBs hg h hb hp
    cases logBs with
    | nil => simp at h
    | cons b logBs =>
      unfold gadgetBases shl1
      by_cases h31 : b < 31
      · rw [if_pos h31, Outcome.bind_ok]
        unfold Gadget.gadgetSize
        rw [if_neg (by have := hp b List.mem_cons_self; omega), Outcome.bind_ok,
          ih (fun x hx => hg x (List.mem_cons_of_mem _ hx)) (by simpa using h) (by
            obtain ⟨b', hb', h'⟩ := hb
            rcases List.mem_cons.mp hb' with rfl | hb'
            · omega
            · exact ⟨b', hb', h'⟩) fun x hx => hp x (List.mem_cons_of_mem _ hx)]
        rfl
      · rw [if_neg h31]
        rfl

/-- **C51 fails for wide bases.** With 64-bit words a base of 31 bits or more fits a word, but `Create`
computes it as an `int`, which is undefined. -/
theorem c51_wide_base {w l : ℕ} {ms : List Modulus} {logBs hats hatInvs : List ℕ} (hl : 0 < l) (hne : ms ≠ [])
    (hg : ∀ m ∈ ms, GoodModulus w l m) (hlen : logBs.length = ms.length) (h1 : hats.length = ms.length)
    (h2 : hatInvs.length = ms.length) (hp : ∀ b ∈ logBs, 0 < b) (hb : ∃ b ∈ logBs, 31 ≤ b) :
    RGadget.create l logBs hats hatInvs ms = .ub .badShift := by
  unfold RGadget.create
  rw [if_neg (by omega), if_neg (by simpa using hne), if_neg (by omega), if_neg (by omega),
    if_neg (by omega), gadgetBases_ub hg hlen hb hp]
  rfl

/-- **C51.** A gadget for fewer moduli than the polynomial has is read outside its bounds: `Decompose`
compares the polynomial with `moduli` only. -/
theorem c51_short_gadget : ∃ g a, RGadget.create 2 [3] [1] [1] [exampleModulus 16 2 97] = .ok g ∧
    a.ntt = false ∧ a.coeffs.length = exMs.length ∧ g.decompose a exMs = .ub .outOfBounds := by
  have : (match RGadget.create 2 [3] [1] [1] [exampleModulus 16 2 97] with
    | .ok g => (match g.decompose ⟨2, [[1, 2, 3, 4], [5, 6, 7, 8]], false⟩ exMs with
      | .ub .outOfBounds => true | _ => false)
    | _ => false) = true := by decide +kernel
  cases h : RGadget.create 2 [3] [1] [1] [exampleModulus 16 2 97] with
  | err e => rw [h] at this; cases this
  | ub e => rw [h] at this; cases this
  | ok g =>
    rw [h] at this
    refine ⟨g, ⟨2, [[1, 2, 3, 4], [5, 6, 7, 8]], false⟩, rfl, rfl, rfl, ?_⟩
    dsimp only at this
    split at this
    · assumption
    · cases this

/-- The gadget of the examples: moduli 97 and 193, bases 8 and 4. -/
def exGadget : Outcome RGadget := RGadget.create 2 [3, 2]
  (exMs.map fun m => Mont.importInt m.p (modulusProd exMs / m.N))
  (exMs.map fun m => Mont.multiplicativeInverse m.p (Mont.importInt m.p (modulusProd exMs / m.N))) exMs

/-- The hypotheses of `c51_gadget` are met: moduli 97 and 193, bases 8 and 4; every polynomial decomposes. -/
theorem exGadget_ok : ∃ g Gs, exGadget = .ok g ∧ g.dims = [3, 4] ∧ GadgetFor 2 exMs g Gs [3, 3, 3, 2, 2, 2, 2] := by
  have hh : List.Forall₂ (fun (m : Modulus) x => x ≤ m.N ∧
      (Mont.exportInt m.p x : ℤ) = ((modulusProd exMs / m.N : ℕ) : ℤ) % m.N) exMs
      (exMs.map fun m => Mont.importInt m.p (modulusProd exMs / m.N)) := by
    decide +kernel
  have hi : HatInvs exMs (exMs.map fun m => Mont.multiplicativeInverse m.p
      (Mont.importInt m.p (modulusProd exMs / m.N))) := by
    unfold HatInvs
    decide +kernel
  obtain ⟨g, Gs, g1, g2, g3⟩ := c51_gadget (w := 16) (l := 2) (by norm_num) (by norm_num)
    (by simp [exMs]) exMs_good (by decide +kernel) (logBs := [3, 2]) rfl (by decide) hh hi
  have e : List.zipWith (fun (m : Modulus) b => (Nat.size m.N + (b - 1)) / b) exMs [3, 2] = [3, 4] := by
    decide +kernel
  rw [e] at g2
  rw [g2] at g3
  exact ⟨g, Gs, g1, g2, g3⟩

end Shell
