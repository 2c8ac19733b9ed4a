import Verif.Lemmas.RnsStoreCt
import Verif.Props.InPlace
/-!
# Property C89: no history of calls on RNS polynomials and ciphertexts has undefined behaviour
-/

namespace Shell
open Spec Rns Res

variable {w l : ℕ} {ms : List Modulus}

/-- C89, polynomials.  A program that starts without objects, or with well-formed ones, and makes any sequence of calls
never has undefined behaviour, whatever the calls return, and all its objects stay well-formed.
*Partial*: the arguments have to fit (`Fitting`), which the library does not check (`c89_unchecked_violated`). -/
theorem c89_polynomials_partial (hw : w ≤ 128) {objs : List RPoly} {cs : List PolyCall} (ho : ∀ x ∈ objs, Boxed x)
    (hc : FittingAll w objs cs) :
    (∀ s ∈ (runAll objs cs).1, ∀ u, s ≠ .ub u) ∧ ∀ x ∈ (runAll objs cs).2, Boxed x := by
  induction cs generalizing objs with
  | nil => exact ⟨by simp [runAll], ho⟩
  | cons c cs ih =>
    obtain ⟨h1, h2⟩ := hc
    obtain ⟨t1, t2⟩ := run_tame hw ho h1
    obtain ⟨i1, i2⟩ := ih t1 h2
    refine ⟨fun s hs => ?_, i2⟩
    simp only [runAll, List.mem_cons] at hs
    rcases hs with rfl | hs
    · exact t2
    · exact i1 s hs

/-- C89, ciphertexts.  Any history of in-place calls on a ciphertext object, whatever they return, is free of undefined
behaviour; other ciphertexts, plaintexts and scalars are arbitrary (but see `Careful`).
*Partial*: `Careful` (`c89_unchecked_ciphertext_violated`), and at least one component (`c89_no_component_violated`). -/
theorem c89_ciphertexts_partial {x : LCt} {cs : List Call} (hs : Sound w l x) (hc : CarefulAll w l x cs) :
    (∀ s ∈ (runCalls w x cs).1, ∀ u, s ≠ .ub u) ∧ Sound w l (runCalls w x cs).2 := by
  induction cs generalizing x with
  | nil => exact ⟨by simp [runCalls], hs⟩
  | cons c cs ih =>
    obtain ⟨h1, h2⟩ := hc
    obtain ⟨t1, t2⟩ := Call.run_tame hs h1
    obtain ⟨i1, i2⟩ := ih t1 h2
    refine ⟨fun s hs => ?_, i2⟩
    simp only [runCalls, List.mem_cons] at hs
    rcases hs with rfl | hs
    · exact t2
    · exact i1 s hs

/-- C67 without an assumption on undefined behaviour: after any history of calls the object is the one computed by the
successful calls alone.  *Partial*: as `c67_unchanged_partial`. -/
theorem c89_accepted_partial {x : LCt} {cs : List Call} (hu : Usable w l x) (hs : Sound w l x) (hf : FitsAll w l x cs)
    (hc : CarefulAll w l x cs) : allResults w x (accepted w x cs) = .ok (afterAll w x cs) := by
  suffices Proper w l x cs from (c67_history_partial hu this).1
  induction cs generalizing x with
  | nil => trivial
  | cons c cs ih =>
    obtain ⟨h1, h2⟩ := hc
    obtain ⟨f1, f2⟩ := hf
    obtain ⟨t1, t2⟩ := Call.run_tame hs h1
    obtain ⟨u1, u2⟩ := c67_unchanged_partial hu f1
    refine ⟨f1, t2, ih ?_ t1 f2 h2⟩
    cases h : (c.run w x).2 with
    | ok _ => exact u2 h
    | err e => rw [u1 e h]; exact hu
    | ub u => exact absurd h (t2 u)

/-! ### Polynomials built from vectors -/

/-- Detaching the last vector of a polynomial and appending it again gives the polynomial; the parts represent the same
polynomial modulo the other moduli and modulo the last one. -/
theorem c89_detach_append {m : Modulus} {x : RPoly} {F : Fin (2 ^ l) → ℤ} (hx : Represents l (ms ++ [m]) x F) :
    ∃ x' v, detachIn x = (x', .ok ()) ∧ Rns.append x' v = x ∧ Represents l ms x' F ∧ Holds l m x.ntt v F := by
  obtain ⟨h1, h2⟩ := hx
  have hlen := h2.length_eq
  have hne : x.coeffs ≠ [] := by rintro h; rw [h] at hlen; simp at hlen
  obtain ⟨cs, v, hcs⟩ : ∃ cs v, x.coeffs = cs ++ [v] := ⟨_, _, (List.dropLast_append_getLast hne).symm⟩
  rw [hcs] at h2 hlen
  have hlen' : ms.length = cs.length := by simpa using hlen
  have h3 := List.forall₂_take_append _ _ _ h2
  have h4 := List.forall₂_drop_append _ _ _ h2
  rw [← hlen', List.take_left] at h3
  rw [← hlen', List.drop_left] at h4
  refine ⟨⟨x.logN, cs, x.ntt⟩, v, ?_, ?_, ⟨h1, h3⟩, ?_⟩
  · unfold detachIn Rns.detachLast
    rw [hcs]
    simp [Res.withTemp]
  · unfold Rns.append
    obtain ⟨a, b, c⟩ := x
    simp only at hcs
    rw [hcs]
  · simpa using h4

/-- Replacing one vector changes the polynomial modulo the corresponding modulus alone. -/
theorem c89_replace {x : RPoly} {i : ℕ} {v : List ℕ} {F G : Fin (2 ^ l) → ℤ} (hx : Represents l ms x F) {m : Modulus}
    (hm : ms[i]? = some m) (hv : Holds l m x.ntt v G) :
    ∃ y, replaceIn x i v = (y, .ok ()) ∧ y.logN = l ∧ y.ntt = x.ntt ∧ y.coeffs.length = ms.length ∧
      ∀ j m' u, ms[j]? = some m' → y.coeffs[j]? = some u → Holds l m' y.ntt u (if j = i then G else F) := by
  obtain ⟨h1, h2⟩ := hx
  have hlen := h2.length_eq
  have hi : i < ms.length := by
    rw [List.getElem?_eq_some_iff] at hm
    exact hm.1
  refine ⟨{ x with coeffs := x.coeffs.set i v }, ?_, h1, rfl, by simp [hlen], fun j m' u hj hu => ?_⟩
  · unfold replaceIn
    rw [if_neg (by omega)]
    simp
  · simp only at hu ⊢
    rw [List.getElem?_set] at hu
    by_cases hji : j = i
    · subst hji
      rw [if_pos rfl, if_pos (by omega)] at hu
      cases hu
      rw [hm] at hj
      cases hj
      rw [if_pos rfl]
      exact hv
    · rw [if_neg (Ne.symm hji)] at hu
      rw [if_neg hji]
      rw [List.forall₂_iff_get] at h2
      obtain ⟨a, rfl⟩ := List.getElem?_eq_some_iff.1 hj
      obtain ⟨b, rfl⟩ := List.getElem?_eq_some_iff.1 hu
      exact h2.2 j a b

/-- An index outside of the vectors is rejected without effect. -/
theorem c89_replace_rejects (x : RPoly) (i : ℤ) (v : List ℕ) (h : i < 0 ∨ i ≥ x.coeffs.length) :
    replaceIn x i v = (x, .err .invalidArgument) := if_pos h

/-! ### What the library does not check -/

/-- Calls with arguments that do not fit are undefined: a vector of the wrong length that was appended or put in place of
another one, moduli of a smaller dimension, the plaintext modulus 0, the empty vector, tables that are too narrow. -/
theorem c89_unchecked_violated :
    (runAll [exPoly true] [.replace 0 0 [1, 2], .substitute 0 3 exMs]).1 = [.ok (), .ub .outOfBounds] ∧
    (runAll [⟨2, [[1, 2, 3, 4]], true⟩] [.append 0 [], .toCoeff 0 exMs]).1 = [.ok (), .ub .signedOverflow] ∧
    (PolyCall.run [⟨3, [[1, 2, 3, 4, 5, 6, 7, 8]], false⟩] (.toNtt 0 [exampleModulus 16 2 97])).2 = .ub .outOfBounds ∧
    (PolyCall.run [⟨3, [[1, 2, 3, 4, 5, 6, 7, 8]], true⟩] (.substitute 0 3 [exampleModulus 16 2 97])).2 = .ub .outOfBounds ∧
    (PolyCall.run [exPoly true] (.modReduceLsb 0 0 [1] exMs)).2 = .ub .divByZero ∧
    (PolyCall.run [] (.convertBalanced [] (exampleModulus 16 2 97).p exMs)).2 = .ub .signedOverflow ∧
    (PolyCall.run [exPoly false] (.switchBasis 0 (fun _ => 0) exMs exMs [1, 1] [[], []] [1, 1])).2 = .ub .outOfBounds ∧
    (PolyCall.run [] (.zero 31 exMs true)).2 = .ub .badShift := by
  decide +kernel

/-- `Substitute` on polynomials with `2^30` coefficients overflows when it computes `2 * n`, even for a valid power. -/
theorem c89_substitute_large_violated (x : RPoly) (power : ℤ) (hx : x.logN = 30) (h0 : 0 ≤ power) (h1 : power % 2 = 1) :
    Rns.substitute ms x power = .ub .signedOverflow := by
  unfold Rns.substitute
  rw [hx]
  have : power.tmod 2 = 1 := by rw [Int.tmod_eq_emod_of_nonneg h0]; exact h1
  simp [shl1, this, h0, not_lt.2 h0, Outcome.bind_ok]

/-- A ciphertext: the plaintext modulus 0, a pad of another dimension, and a lazy sum of a polynomial with a short vector. -/
theorem c89_unchecked_ciphertext_violated :
    (runCalls 16 exObject [.modReduceBgv 0 [1]]).1 = [.ub .divByZero] ∧
    (runCalls 16 exObject [.toCoeff, .setPad ⟨3, [[1, 2, 3, 4, 5, 6, 7, 8], [1, 2, 3, 4, 5, 6, 7, 8]], false⟩, .toNtt]).1 =
      [.ok (), .ok (), .ub .outOfBounds] ∧
    (runCalls 16 exObject [.fusedAbsorbLazily exInPlaceCt ⟨2, [[1, 2, 3, 4], [1]], true⟩]).1 = [.ub .outOfBounds] := by
  decide +kernel

/-- Adding a plaintext to a ciphertext without components, which the constructor accepts. -/
theorem c89_no_component_violated (x : RCt) (pt : RPoly) (hx : x.c = []) (hp : pt.coeffs.length = x.ms.length) :
    (x.addPlainIn pt).2 = .ub .outOfBounds ∧ (x.subPlainIn pt).2 = .ub .outOfBounds := by
  unfold RCt.addPlainIn RCt.subPlainIn RCt.onFirst
  rw [hx, hp]
  simp

/-! ### Concrete cases -/

private theorem at_of {objs : List RPoly} {i : ℕ} {P : RPoly → Prop} (h : objs[i]?.map (·.logN) = some 2)
    (hP : ∀ x : RPoly, x.logN = 2 → P x) : At objs i P := by
  obtain ⟨x, h1, h2⟩ := Option.map_eq_some_iff.1 h
  exact ⟨x, h1, hP x h2⟩

private theorem good2 {x : RPoly} (h : x.logN = 2) : ModuliOf 16 x.logN exMs := by
  rw [h]; exact exMs_good

/-- A program of fourteen calls that starts without objects; four of the calls return errors. -/
def exPolyProgram : List PolyCall :=
  [.create [[1, 2, 3, 4], [500, 6, 7, 8]] false, .create [[1, 2, 3]] true, .toNtt 0 exMs, .copy 0, .toNtt 1 exMs,
    .mul 0 1 exMs, .substitute 0 3 exMs, .add 0 2 exMs, .modReduceLsb 0 5 [1] exMs, .add 0 1 exMs, .detach 1,
    .append 1 [9, 8, 7, 6], .deserialize exMs ⟨2, [[255, 255, 255, 255], [0, 1, 2, 3]], true⟩, .replace 2 2 [0, 0, 0, 0]]

theorem exPolyProgram_fitting : FittingAll 16 [] exPolyProgram := by
  refine ⟨by show ∀ v ∈ _, _; decide, by show ∀ v ∈ _, _; decide, ?_, ?_, ?_, ?_, ?_, ?_, ⟨by decide, ?_⟩, ?_, ?_, ?_, ⟨by decide, ?_⟩, ?_, trivial⟩
  · exact at_of (by decide +kernel) fun _ => good2
  · exact at_of (by decide +kernel) fun _ _ => trivial
  · exact at_of (by decide +kernel) fun _ => good2
  · exact at_of (by decide +kernel) fun _ _ => at_of (by decide +kernel) fun _ _ => trivial
  · exact at_of (by decide +kernel) fun _ h => ⟨good2 h, by omega⟩
  · exact at_of (by decide +kernel) fun _ _ => at_of (by decide +kernel) fun _ _ => trivial
  · exact at_of (by decide +kernel) fun _ => good2
  · exact at_of (by decide +kernel) fun _ _ => at_of (by decide +kernel) fun _ _ => trivial
  · exact at_of (by decide +kernel) fun _ _ => trivial
  · exact at_of (by decide +kernel) fun _ h => by rw [h]; rfl
  · exact fun m hm => ⟨2, exMs_good m hm⟩
  · exact at_of (by decide +kernel) fun _ h => by rw [h]; rfl

example : ∀ s ∈ (runAll [] exPolyProgram).1, ∀ u, s ≠ .ub u :=
  (c89_polynomials_partial (by norm_num) (by simp) exPolyProgram_fitting).1

example : (runAll [] exPolyProgram).2.length = 4 ∧ ((runAll [] exPolyProgram).1.filter fun s => s ≠ .ok ()).length = 4 := by
  decide +kernel

theorem exObject_sound : Sound 16 2 exObject :=
  ⟨exMs_good, by simp [exObject, exInPlaceCt, exMs], by simp [exObject, exInPlaceCt], by
    intro c hc
    have : c = exPoly true := by simpa [exObject, exInPlaceCt] using hc
    rw [this]; exact ⟨rfl, (exPoly_shape true).len⟩, by decide, by simp [exObject]⟩

theorem exHistory_careful : CarefulAll 16 2 exObject exHistory := by
  have hc : ∀ c ∈ exInPlaceCt.c, Filled c := fun c hc => (exObject_sound.components c hc).2
  exact ⟨trivial, trivial, trivial, ⟨hc, (exPoly_shape true).len⟩, trivial, trivial, show (17 : ℕ) ≠ 0 by decide, trivial, trivial, trivial⟩

example : ∀ s ∈ (runCalls 16 exObject exHistory).1, ∀ u, s ≠ .ub u :=
  (c89_ciphertexts_partial exObject_sound exHistory_careful).1

/-- The hypotheses of `c89_accepted_partial`. -/
example : allResults 16 exObject (accepted 16 exObject exHistory) = .ok (afterAll 16 exObject exHistory) := by
  have hc : Uniform 2 exInPlaceCt := exObject_usable.uniform
  have hw : ∀ f, Rectangular (exPoly f) := fun f => ⟨2, 2, f, exPoly_shape f⟩
  exact c89_accepted_partial exObject_usable exObject_sound
    ⟨hw false, ⟨2, hc⟩, trivial, ⟨hc, hw true⟩, trivial, hw true, trivial, trivial, ⟨2, hc⟩, trivial⟩ exHistory_careful

/-- The hypotheses of `c89_detach_append` and `c89_replace`. -/
example : ∃ (x : RPoly) (v : List ℕ) (m0 m1 : Modulus), exMs = [m0] ++ [m1] ∧ Represents 2 ([m0] ++ [m1]) x 0 ∧
    exMs[0]? = some m0 ∧ Holds 2 m0 x.ntt v 0 := by
  obtain ⟨r, r1, r2, r3⟩ := repr_createZero exMs_good (by simp [exMs]) true
  have h := r3
  obtain ⟨_, h⟩ := h
  cases hr : r.coeffs with
  | nil => rw [hr] at h; cases h
  | cons v vs =>
    rw [hr] at h
    cases h with
    | cons h1 h2 => exact ⟨r, v, _, _, rfl, r3, rfl, h1⟩

end Shell
