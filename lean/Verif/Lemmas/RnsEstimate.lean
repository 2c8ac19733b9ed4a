import Verif.Spec.RnsEstimate
import Verif.Lemmas.DoubleError
/-!
# Lemmas on the estimates of programs on RNS ciphertexts
-/

namespace Shell.RnsEstimate
open Spec Rns Rns.Res RnsCtStore DoubleError

/-! ### Change of arithmetic -/

section
variable {E F : Type}

def Consts.map (φ : E → F) (K : Consts E) : Consts F :=
  ⟨φ K.plaintext, φ K.secretKey, φ K.publicKey, fun a b d => φ <$> K.switch a b d⟩

def Effect.map (φ : E → F) : Effect E → Effect F
  | .none => .none
  | .push o => .push (φ <$> o)
  | .set a o => .set a (φ <$> o)

theorem step_map (φ : E → F) (m : Mem) (es : List E) (r : Res Mem) (f : Effect E) :
    step m (es.map φ) r (f.map φ) = mapRes (Prod.map id (List.map φ)) (step m es r f) := by
  obtain ⟨m', o⟩ := r
  cases o with
  | ok u =>
    cases f with
    | none => rfl
    | push o => cases o <;> simp [step, Effect.map, mapRes, withTemp]
    | set a o => cases o <;> simp [step, Effect.map, mapRes, withTemp]
  | err s => rfl
  | ub s => rfl

theorem runWith_map {C : Type} (φ : E → F) {run : Mem → C → Res Mem} {f : Mem → List E → C → Effect E}
    {f' : Mem → List F → C → Effect F} (h : ∀ m es c, f' m (es.map φ) c = (f m es c).map φ) (m : Mem) (es : List E)
    (cs : List C) : runWith run f' m (es.map φ) cs =
      ((runWith run f m es cs).1, (runWith run f m es cs).2.1, (runWith run f m es cs).2.2.map φ) := by
  induction cs generalizing m es with
  | nil => rfl
  | cons c cs ih =>
    have e : step m (es.map φ) (run m c) (f' m (es.map φ) c) =
        mapRes (Prod.map id (List.map φ)) (step m es (run m c) (f m es c)) := by rw [h, step_map]
    simp only [runWith]
    rw [e]
    show ((step m es (run m c) (f m es c)).2 :: (runWith run f' _ (List.map φ _) cs).1,
      (runWith run f' _ (List.map φ _) cs).2) = _
    rw [ih]
    rfl

variable [Add E] [Mul E] [Div E] [NatCast E] [Add F] [Mul F] [Div F] [NatCast F] {φ : E → F} (hφ : IsHom φ)
include hφ

theorem afterSwitch_map (K : Consts E) (g : RGadget) (n : ℕ) (e : E) :
    afterSwitch (K.map φ) g n (φ e) = φ <$> afterSwitch K g n e := by
  unfold afterSwitch Consts.map
  cases RnsErrorTrack.logGadgetBase g with
  | ok b =>
    simp only [Outcome.bind_ok]
    cases K.switch n b g.dimension <;> simp [hφ.add]
  | err s => rfl
  | ub s => rfl

theorem bgvOp_map (K : Consts E) (es : List E) (e : E) (op : RnsCtStore.Op) :
    bgvOp (K.map φ) (es.map φ) (φ e) op = φ <$> bgvOp K es e op := by
  cases op with
  | add b => simp only [bgvOp, rd_map]; cases rd es b <;> simp [hφ.add]
  | sub b => simp only [bgvOp, rd_map]; cases rd es b <;> simp [hφ.add]
  | fused b i => simp only [bgvOp, rd_map]; cases rd es b <;> simp [hφ.add, hφ.mul, Consts.map]
  | scale z => simp only [bgvOp, Outcome.map_ok, hφ.mul, hφ.div, hφ.cast]
  | _ => simp [bgvOp, hφ.mul, Consts.map]

theorem bfvOp_map (K : Consts E) (es : List E) (e : E) (op : RnsBfvStore.Op) :
    bfvOp (K.map φ) (es.map φ) (φ e) op = φ <$> bfvOp K es e op := by
  cases op with
  | add b => simp only [bfvOp, rd_map]; cases rd es b <;> simp [hφ.add]
  | sub b => simp only [bfvOp, rd_map]; cases rd es b <;> simp [hφ.add]
  | fused b i => simp only [bfvOp, rd_map]; cases rd es b <;> simp [hφ.add, hφ.mul, Consts.map]
  | scale z => simp only [bfvOp, Outcome.map_ok, hφ.mul, hφ.div, hφ.cast]
  | _ => simp [bfvOp, hφ.mul, Consts.map]

theorem bgvEffect_map (K : Consts E) (v : Given) (m : Mem) (es : List E) (c : RnsCtStore.Call) :
    bgvEffect (K.map φ) v m (es.map φ) c = (bgvEffect K v m es c).map φ := by
  cases c with
  | encode u lev => rfl
  | input i => rfl
  | received i => rfl
  | copy a => simp only [bgvEffect, Effect.map, rd_map]
  | opNew a op => simp only [bgvEffect, Effect.map, rd_map, bind_map, map_bind, bgvOp_map hφ]
  | opIn a op => simp only [bgvEffect, Effect.map, rd_map, bind_map, map_bind, bgvOp_map hφ]
  | mul a b =>
    simp only [bgvEffect, Effect.map, rd_map, bind_map, map_bind]
    cases rd es a <;> cases rd es b <;> simp [hφ.mul]
  | substitute a k => simp only [bgvEffect, Effect.map, rd_map]
  | relin a lev => simp only [bgvEffect, Effect.map, rd_map, bind_map, map_bind, afterSwitch_map hφ]
  | galois a lev p => simp only [bgvEffect, Effect.map, rd_map, bind_map, map_bind, afterSwitch_map hφ]

theorem bfvEffect_map (K : Consts E) (v : Given) (m : Mem) (es : List E) (c : RnsBfvStore.Call) :
    bfvEffect (K.map φ) v m (es.map φ) c = (bfvEffect K v m es c).map φ := by
  cases c with
  | encode u lev scaled => rfl
  | input i => rfl
  | received i => rfl
  | copy a => simp only [bfvEffect, Effect.map, rd_map]
  | opNew a op => simp only [bfvEffect, Effect.map, rd_map, bind_map, map_bind, bfvOp_map hφ]
  | opIn a op => simp only [bfvEffect, Effect.map, rd_map, bind_map, map_bind, bfvOp_map hφ]
  | mul a b =>
    simp only [bfvEffect, Effect.map, rd_map, bind_map, map_bind]
    cases rd es a <;> cases rd es b <;> simp [hφ.mul]
  | substitute a k => simp only [bfvEffect, Effect.map, rd_map]
  | relin a lev => simp only [bfvEffect, Effect.map, rd_map, bind_map, map_bind, afterSwitch_map hφ]
  | galois a lev p => simp only [bfvEffect, Effect.map, rd_map, bind_map, map_bind, afterSwitch_map hφ]

end

/-! ### The roundings of a program -/

section
variable {c : ℕ}

/-- The estimate that a call computes was rounded at most `M` times. -/
def Effect.Le (M : ℕ) : Effect (Count c) → Prop
  | .none => True
  | .push o => ∀ e, o = .ok e → e.n ≤ M
  | .set _ o => ∀ e, o = .ok e → e.n ≤ M

theorem step_le {M M' : ℕ} (h : M ≤ M') {m : Mem} {es : List (Count c)} (hes : ∀ e ∈ es, e.n ≤ M) {r : Res Mem}
    {f : Effect (Count c)} (hf : f.Le M') : ∀ e ∈ (step m es r f).1.2, e.n ≤ M' := by
  have hes' : ∀ e ∈ es, e.n ≤ M' := fun e he => (hes e he).trans h
  obtain ⟨m', o⟩ := r
  cases o with
  | ok u =>
    cases f with
    | none => exact hes'
    | push o =>
      cases o with
      | ok e =>
        intro x hx
        rcases List.mem_append.mp (show x ∈ es ++ [e] from hx) with hx | hx
        · exact hes' x hx
        · rw [List.mem_singleton.mp hx]; exact hf e rfl
      | err s => exact hes'
      | ub s => exact hes'
    | set a o =>
      cases o with
      | ok e =>
        intro x hx
        rcases List.mem_or_eq_of_mem_set (show x ∈ es.set a e from hx) with hx | hx
        · exact hes' x hx
        · rw [hx]; exact hf e rfl
      | err s => exact hes'
      | ub s => exact hes'
  | err s => exact hes'
  | ub s => exact hes'

/-- Every call adds at most `N + 2` roundings, or doubles them and adds as many. -/
theorem runWith_le {C : Type} {run : Mem → C → Res Mem} {f : Mem → List (Count c) → C → Effect (Count c)} {N : ℕ}
    {noMul : C → Prop}
    (h : ∀ (M : ℕ) m es k, N ≤ M → (∀ e ∈ es, e.n ≤ M) →
      (f m es k).Le (2 * M + N + 2) ∧ (noMul k → (f m es k).Le (M + N + 2)))
    {M : ℕ} (hM : N ≤ M) (m : Mem) {es : List (Count c)} (hes : ∀ e ∈ es, e.n ≤ M) (cs : List C) :
    ∀ e ∈ (runWith run f m es cs).2.2, e.n ≤ 2 ^ cs.length * (M + N + 2) ∧
      ((∀ k ∈ cs, noMul k) → e.n ≤ M + cs.length * (N + 2)) := by
  refine fun e he => ⟨?_, fun hn => ?_⟩
  · induction cs generalizing m es M with
    | nil => exact (hes e he).trans (by simp; omega)
    | cons k cs ih =>
      have := ih (M := 2 * M + N + 2) (by omega) _ (step_le (by omega) hes (h M m es k hM hes).1) he
      refine this.trans ?_
      rw [List.length_cons, pow_succ, mul_assoc]
      exact Nat.mul_le_mul_left _ (by omega)
  · induction cs generalizing m es M with
    | nil => exact (hes e he).trans (by simp)
    | cons k cs ih =>
      have := ih (M := M + N + 2) (by omega) _
        (step_le (by omega) hes ((h M m es k hM hes).2 (hn k (List.mem_cons_self ..)))) he
        (fun k hk => hn k (List.mem_cons_of_mem _ hk))
      refine this.trans ?_
      rw [List.length_cons, Nat.add_mul]
      omega

/-- Constants that were rounded at most `N` times. -/
structure Consts.Le (N : ℕ) (K : Consts (Count c)) : Prop where
  plaintext : K.plaintext.n ≤ N
  secretKey : K.secretKey.n ≤ N
  publicKey : K.publicKey.n ≤ N
  switch : ∀ a b d e, K.switch a b d = .ok e → e.n ≤ N

variable {K : Consts (Count c)} {N M : ℕ} (hK : K.Le N) (hc : c ≤ N) {es : List (Count c)} (hes : ∀ e ∈ es, e.n ≤ M)

theorem rd_le {es : List (Count c)} (hes : ∀ e ∈ es, e.n ≤ M) {a : ℕ} {e : Count c} (h : rd es a = .ok e) : e.n ≤ M :=
  hes e (rd_mem h)

theorem bind_inv {α β : Type} {o : Outcome α} {g : α → Outcome β} {b : β} (h : (o >>= g) = .ok b) :
    ∃ a, o = .ok a ∧ g a = .ok b := by
  cases o with
  | ok a => exact ⟨a, rfl, h⟩
  | err s => cases h
  | ub s => cases h

include hK

theorem afterSwitch_le (hM : N ≤ M) {g : RGadget} {n : ℕ} {e e' : Count c} (he : e.n ≤ M)
    (h : afterSwitch K g n e = .ok e') : e'.n ≤ M + N + 2 := by
  unfold afterSwitch at h
  obtain ⟨b, -, h⟩ := bind_inv h
  obtain ⟨s, hs, h⟩ := bind_inv h
  cases h
  have := hK.switch _ _ _ _ hs
  rw [add_n]
  omega

include hc hes

theorem bgvOp_le (hM : N ≤ M) {e e' : Count c} (he : e.n ≤ M) {op : RnsCtStore.Op} (h : bgvOp K es e op = .ok e') :
    e'.n ≤ M + N + 2 := by
  have hp := hK.plaintext
  cases op with
  | negate => cases h; omega
  | add b => obtain ⟨x, hx, h⟩ := bind_inv h; cases h; have := rd_le hes hx; rw [add_n]; omega
  | sub b => obtain ⟨x, hx, h⟩ := bind_inv h; cases h; have := rd_le hes hx; rw [add_n]; omega
  | addPlain i => cases h; omega
  | subPlain i => cases h; omega
  | absorb i => cases h; rw [mul_n]; omega
  | scale z =>
    cases h
    have h1 := cast_le (c := c) z
    have h2 := cast_small (c := c) (show 2 < 2 ^ 53 by norm_num)
    rw [mul_n, div_n, h2]
    omega
  | fused b i => obtain ⟨x, hx, h⟩ := bind_inv h; cases h; have := rd_le hes hx; rw [add_n, mul_n]; omega
  | reduce => cases h; omega

theorem bfvOp_le (hM : N ≤ M) {e e' : Count c} (he : e.n ≤ M) {op : RnsBfvStore.Op} (h : bfvOp K es e op = .ok e') :
    e'.n ≤ M + N + 2 := by
  have hp := hK.plaintext
  cases op with
  | negate => cases h; omega
  | add b => obtain ⟨x, hx, h⟩ := bind_inv h; cases h; have := rd_le hes hx; rw [add_n]; omega
  | sub b => obtain ⟨x, hx, h⟩ := bind_inv h; cases h; have := rd_le hes hx; rw [add_n]; omega
  | addPlain i => cases h; omega
  | subPlain i => cases h; omega
  | absorb i => cases h; rw [mul_n]; omega
  | absorbSimple i => cases h; rw [mul_n]; omega
  | scale z =>
    cases h
    have h1 := cast_le (c := c) z
    have h2 := cast_small (c := c) (show 2 < 2 ^ 53 by norm_num)
    rw [mul_n, div_n, h2]
    omega
  | fused b i => obtain ⟨x, hx, h⟩ := bind_inv h; cases h; have := rd_le hes hx; rw [add_n, mul_n]; omega
  | reduce => cases h; omega

theorem bgvEffect_le (hM : N ≤ M) (v : Given) (m : Mem) (k : RnsCtStore.Call) :
    (bgvEffect K v m es k).Le (2 * M + N + 2) ∧
      ((∀ a b, k ≠ .mul a b) → (bgvEffect K v m es k).Le (M + N + 2)) := by
  have hs := hK.secretKey
  have hp := hK.publicKey
  have main : (∀ a b, k ≠ .mul a b) → (bgvEffect K v m es k).Le (M + N + 2) := by
    intro hn
    cases k with
    | encode u lev => trivial
    | input i => intro e h; cases h; omega
    | received i => intro e h; cases h; omega
    | copy a => intro e h; have := rd_le hes h; omega
    | opNew a op =>
      intro e h
      obtain ⟨x, hx, h⟩ := bind_inv h
      exact bgvOp_le hK hc hes hM (rd_le hes hx) h
    | opIn a op =>
      intro e h
      obtain ⟨x, hx, h⟩ := bind_inv h
      exact bgvOp_le hK hc hes hM (rd_le hes hx) h
    | mul a b => exact (hn a b rfl).elim
    | substitute a j => intro e h; have := rd_le hes h; omega
    | relin a lev =>
      intro e h
      obtain ⟨x, -, h⟩ := bind_inv h
      obtain ⟨y, hy, h⟩ := bind_inv h
      exact afterSwitch_le hK hM (rd_le hes hy) h
    | galois a lev p =>
      intro e h
      obtain ⟨y, hy, h⟩ := bind_inv h
      exact afterSwitch_le hK hM (rd_le hes hy) h
  refine ⟨?_, main⟩
  by_cases hn : ∀ a b, k ≠ .mul a b
  · have := main hn
    revert this
    generalize bgvEffect K v m es k = f
    cases f with
    | none => exact fun _ => trivial
    | push o => exact fun h e he => (h e he).trans (by omega)
    | set a o => exact fun h e he => (h e he).trans (by omega)
  · push Not at hn
    obtain ⟨a, b, rfl⟩ := hn
    intro e h
    obtain ⟨x, hx, h⟩ := bind_inv h
    obtain ⟨y, hy, h⟩ := bind_inv h
    cases h
    have h1 := rd_le hes hx
    have h2 := rd_le hes hy
    rw [mul_n]
    omega

theorem bfvEffect_le (hM : N ≤ M) (v : Given) (m : Mem) (k : RnsBfvStore.Call) :
    (bfvEffect K v m es k).Le (2 * M + N + 2) ∧
      ((∀ a b, k ≠ .mul a b) → (bfvEffect K v m es k).Le (M + N + 2)) := by
  have hs := hK.secretKey
  have hp := hK.publicKey
  have main : (∀ a b, k ≠ .mul a b) → (bfvEffect K v m es k).Le (M + N + 2) := by
    intro hn
    cases k with
    | encode u lev scaled => trivial
    | input i => intro e h; cases h; omega
    | received i => intro e h; cases h; omega
    | copy a => intro e h; have := rd_le hes h; omega
    | opNew a op =>
      intro e h
      obtain ⟨x, hx, h⟩ := bind_inv h
      exact bfvOp_le hK hc hes hM (rd_le hes hx) h
    | opIn a op =>
      intro e h
      obtain ⟨x, hx, h⟩ := bind_inv h
      exact bfvOp_le hK hc hes hM (rd_le hes hx) h
    | mul a b => exact (hn a b rfl).elim
    | substitute a j => intro e h; have := rd_le hes h; omega
    | relin a lev =>
      intro e h
      obtain ⟨x, -, h⟩ := bind_inv h
      obtain ⟨y, hy, h⟩ := bind_inv h
      exact afterSwitch_le hK hM (rd_le hes hy) h
    | galois a lev p =>
      intro e h
      obtain ⟨y, hy, h⟩ := bind_inv h
      exact afterSwitch_le hK hM (rd_le hes hy) h
  refine ⟨?_, main⟩
  by_cases hn : ∀ a b, k ≠ .mul a b
  · have := main hn
    revert this
    generalize bfvEffect K v m es k = f
    cases f with
    | none => exact fun _ => trivial
    | push o => exact fun h e he => (h e he).trans (by omega)
    | set a o => exact fun h e he => (h e he).trans (by omega)
  · push Not at hn
    obtain ⟨a, b, rfl⟩ := hn
    intro e h
    obtain ⟨x, hx, h⟩ := bind_inv h
    obtain ⟨y, hy, h⟩ := bind_inv h
    cases h
    have h1 := rd_le hes hx
    have h2 := rd_le hes hy
    rw [mul_n]
    omega

end

/-! ### The constants -/

section
variable {c : ℕ} {cast : ℕ → ℝ}

theorem consts_le (logN logT : ℕ) : (consts (⟨logN, logT, ⟨0⟩⟩ : RParams (Count c))).Le (6 * c + 10) := by
  have nn := cast_le (c := c) (2 ^ logN)
  have n72 := cast_le (c := c) (72 * 2 ^ logN)
  have tt := cast_le (c := c) (logT ^ 2)
  have c3 := cast_small (c := c) (show 3 < 2 ^ 53 by norm_num)
  have c6 := cast_small (c := c) (show 6 < 2 ^ 53 by norm_num)
  have c8 := cast_small (c := c) (show 8 < 2 ^ 53 by norm_num)
  refine ⟨?_, ?_, ?_, fun a b d e h => ?_⟩
  · simp only [consts, RParams.bPlaintext, RParams.exportT, mul_n, sqrt_n, c3]; omega
  · simp only [consts, RParams.bSecretKey, RParams.exportT, mul_n, add_n, sqrt_n, c3, c6]; omega
  · simp only [consts, RParams.bPublicKey, RParams.exportT, mul_n, add_n, sqrt_n, c3, c6]; omega
  · obtain ⟨x, -, h⟩ := bind_inv h
    obtain ⟨y, -, h⟩ := bind_inv h
    cases h
    have hx := cast_le (c := c) x
    have hy := cast_le (c := c) y
    have hd := cast_le (c := c) d
    have ha := cast_le (c := c) a
    simp only [RParams.exportT, mul_n, div_n, sqrt_n, c3, c8]
    omega

theorem switch_map {A E : Type} [Add A] [Mul A] [Div A] [NatCast A] [Sqrt A] [Add E] [Mul E] [Div E] [NatCast E]
    [Sqrt E] {φ : A → E} (hφ : IsHom φ) (hs : ∀ a, φ (sqrt a) = sqrt (φ a)) (Q : RParams A)
    (a b d : ℕ) : φ <$> Q.boundOnKeySwitching a b d =
      RParams.boundOnKeySwitching ⟨Q.logN, Q.logT, φ Q.sigma⟩ a b d := by
  unfold RParams.boundOnKeySwitching
  simp only [map_bind]
  congr 1
  funext x
  congr 1
  funext y
  simp only [RParams.exportT, Outcome.pure_eq, Outcome.map_ok, hφ.mul, hφ.div, hφ.cast, hs]

theorem consts_map {A E : Type} [Add A] [Mul A] [Div A] [NatCast A] [Sqrt A] [Add E] [Mul E] [Div E] [NatCast E]
    [Sqrt E] {φ : A → E} (hφ : IsHom φ) (hs : ∀ a, φ (sqrt a) = sqrt (φ a)) (Q : RParams A) :
    (consts Q).map φ = consts ⟨Q.logN, Q.logT, φ Q.sigma⟩ := by
  unfold Consts.map consts
  congr 1
  · simp only [RParams.bPlaintext, RParams.exportT, hφ.mul, hφ.cast, hs]
  · simp only [RParams.bSecretKey, RParams.exportT, hφ.mul, hφ.add, hφ.cast, hs]
  · simp only [RParams.bPublicKey, RParams.exportT, hφ.mul, hφ.add, hφ.cast, hs]
  · funext a b d
    exact switch_map hφ hs Q a b d

theorem real_consts (P : RParams (Dbl cast)) : consts (⟨P.logN, P.logT, P.sigma.val⟩ : RParams ℝ) = exactConsts P := by
  unfold consts exactConsts
  congr 1
  · simp [RParams.bPlaintext, RParams.exportT, RnsErrorTrack.RErrorParams.bPlaintext,
        RnsErrorTrack.RErrorParams.exportT, RnsErrorTrack.RErrorParams.dim, Sqrt.sqrt]
  · simp [RParams.bSecretKey, RParams.exportT, RnsErrorTrack.RErrorParams.bSecretKey,
        RnsErrorTrack.RErrorParams.exportT, RnsErrorTrack.RErrorParams.dim, Sqrt.sqrt]
  · simp [RParams.bPublicKey, RParams.exportT, RnsErrorTrack.RErrorParams.bPublicKey,
        RnsErrorTrack.RErrorParams.exportT, RnsErrorTrack.RErrorParams.dim, Sqrt.sqrt]
  · funext a b d
    simp [RParams.boundOnKeySwitching, RParams.exportT, RnsErrorTrack.RErrorParams.boundOnKeySwitching,
        RnsErrorTrack.RErrorParams.exportT, Sqrt.sqrt]

end

/-! ### What remains of a program without its estimates -/

section
variable {E : Type}

/-- The estimates of a call exist, and there are as many as ciphertexts. -/
structure Fits (m : Mem) (r : Res Mem) (f : Effect E) : Prop where
  fails : r.2 ≠ .ok () → r.1.cts.length = m.cts.length
  none : r.2 = .ok () → f = .none → r.1.cts.length = m.cts.length
  push : r.2 = .ok () → ∀ o, f = .push o → (∃ e, o = .ok e) ∧ r.1.cts.length = m.cts.length + 1
  set : r.2 = .ok () → ∀ a o, f = .set a o → (∃ e, o = .ok e) ∧ r.1.cts.length = m.cts.length

theorem step_fits {m : Mem} {es : List E} (hl : es.length = m.cts.length) {r : Res Mem} {f : Effect E}
    (h : Fits m r f) : (step m es r f).1.1 = r.1 ∧ (step m es r f).2 = r.2 ∧
      (step m es r f).1.2.length = (step m es r f).1.1.cts.length := by
  obtain ⟨m', o⟩ := r
  cases o with
  | ok u =>
    cases f with
    | none => exact ⟨rfl, rfl, hl.trans (h.none rfl rfl).symm⟩
    | push o =>
      obtain ⟨⟨e, rfl⟩, h2⟩ := h.push rfl o rfl
      refine ⟨rfl, rfl, ?_⟩
      show (es ++ [e]).length = m'.cts.length
      rw [List.length_append, hl]
      exact h2.symm
    | set a o =>
      obtain ⟨⟨e, rfl⟩, h2⟩ := h.set rfl a o rfl
      refine ⟨rfl, rfl, ?_⟩
      show (es.set a e).length = m'.cts.length
      rw [List.length_set, hl]
      exact h2.symm
  | err s => exact ⟨rfl, rfl, hl.trans (h.fails (fun e => by cases e)).symm⟩
  | ub s => exact ⟨rfl, rfl, hl.trans (h.fails (fun e => by cases e)).symm⟩

theorem newCt_ok {m : Mem} {o : Outcome RCt} : (newCt m o).2 = .ok () →
    (∃ x, o = .ok x) ∧ (newCt m o).1.cts.length = m.cts.length + 1 := by
  cases o with
  | ok x => exact fun _ => ⟨⟨x, rfl⟩, by simp [newCt, withTemp]⟩
  | err s => exact fun h => by cases h
  | ub s => exact fun h => by cases h

theorem newCt_fails {m : Mem} {o : Outcome RCt} (h : (newCt m o).2 ≠ .ok ()) :
    (newCt m o).1.cts.length = m.cts.length := by
  cases o with
  | ok x => exact (h rfl).elim
  | err s => rfl
  | ub s => rfl

theorem withTemp_ok {α β : Type} {a : β} {o : Outcome α} {g : α → Res β} (h : (withTemp a o g).2 = .ok ()) :
    ∃ x, o = .ok x ∧ withTemp a o g = g x ∧ (g x).2 = .ok () := by
  cases o with
  | ok x => exact ⟨x, rfl, rfl, h⟩
  | err s => cases h
  | ub s => cases h

theorem rd_lt {α : Type} {l : List α} {a : ℕ} {x : α} (h : rd l a = .ok x) : a < l.length := by
  unfold rd at h
  cases hx : l[a]? with
  | none => rw [hx] at h; cases h
  | some y => exact (List.getElem?_eq_some_iff.mp hx).1

theorem rd_exists {α : Type} {l : List α} {a : ℕ} (h : a < l.length) : ∃ x, rd l a = .ok x :=
  ⟨l[a], by unfold rd; rw [List.getElem?_eq_getElem h]⟩

theorem rd_other {α β : Type} {l : List α} {l' : List β} (hl : l'.length = l.length) {a : ℕ} {x : α}
    (h : rd l a = .ok x) : ∃ y, rd l' a = .ok y := rd_exists (hl ▸ rd_lt h)

/-- Calls that look up ciphertext `a` and make a new one. -/
theorem fits_new {m : Mem} {a : ℕ} {g : RCt → Res Mem} {e : Outcome E}
    (hg : ∀ x, rd m.cts a = .ok x → ∃ o, g x = newCt m o ∧ ∀ z, o = .ok z → ∃ y, e = .ok y) :
    Fits m (withTemp m (rd m.cts a) g) (.push e) := by
  cases hx : rd m.cts a with
  | ok x =>
    obtain ⟨o, ho, h2⟩ := hg x hx
    have e1 : withTemp m (.ok x) g = newCt m o := ho
    rw [e1]
    refine ⟨newCt_fails, fun _ h => (by cases h), fun h o' ho' => ?_, fun _ _ _ h => by cases h⟩
    cases ho'
    obtain ⟨⟨z, hz⟩, h4⟩ := newCt_ok h
    exact ⟨h2 z hz, h4⟩
  | err s => exact ⟨fun _ => rfl, fun h => (by cases h), fun h => (by cases h), fun h => by cases h⟩
  | ub s => exact ⟨fun _ => rfl, fun h => (by cases h), fun h => (by cases h), fun h => by cases h⟩

theorem fits_set {m : Mem} {a : ℕ} {g : RCt → Res RCt} {e : Outcome E}
    (hg : ∀ x, rd m.cts a = .ok x → (g x).2 = .ok () → ∃ y, e = .ok y) :
    Fits m (withTemp m (rd m.cts a) fun x => ({ m with cts := m.cts.set a (g x).1 }, (g x).2)) (.set a e) := by
  cases hx : rd m.cts a with
  | ok x =>
    refine ⟨fun _ => by simp [withTemp], fun _ h => (by cases h), fun _ _ h => (by cases h), fun h b o ho => ?_⟩
    cases ho
    exact ⟨hg x hx h, by simp [withTemp]⟩
  | err s => exact ⟨fun _ => rfl, fun h => (by cases h), fun h => (by cases h), fun h => by cases h⟩
  | ub s => exact ⟨fun _ => rfl, fun h => (by cases h), fun h => (by cases h), fun h => by cases h⟩

theorem fits_newCt {m : Mem} {o : Outcome RCt} {e : Outcome E} (h : ∀ z, o = .ok z → ∃ y, e = .ok y) :
    Fits m (newCt m o) (.push e) := by
  refine ⟨newCt_fails, fun _ h => (by cases h), fun h' o' ho' => ?_, fun _ _ _ h => by cases h⟩
  cases ho'
  obtain ⟨⟨z, hz⟩, h4⟩ := newCt_ok h'
  exact ⟨h z hz, h4⟩

theorem fits_encode {m : Mem} {o : Outcome RPoly} :
    Fits (E := E) m (withTemp m o fun p => ({ m with pts := m.pts ++ [p] }, .ok ())) .none := by
  refine ⟨fun _ => ?_, fun _ _ => ?_, fun _ _ h => (by cases h), fun _ _ _ h => by cases h⟩ <;> cases o <;> rfl

variable [Add E] [Mul E] [Div E] [NatCast E]

theorem value_ok {α : Type} {r : Res α} {x : α} (h : r.value = .ok x) : r.2 = .ok () := by
  obtain ⟨a, o⟩ := r
  cases o with
  | ok u => rfl
  | err s => cases h
  | ub s => cases h

theorem afterSwitch_ok [Sqrt E] {P : RParams E} (hP : P.logN < 31) {g : RGadget} (hg : UsableGadget g) (n : ℕ) (e : E) :
    ∃ e', afterSwitch (consts P) g n e = .ok e' := by
  unfold afterSwitch RnsErrorTrack.logGadgetBase consts RParams.boundOnKeySwitching shl1
  cases hb : g.logBs.max? with
  | none => exact (hg.1 (List.max?_eq_none_iff.mp hb)).elim
  | some b =>
    have h1 := hg.2 b (List.max?_mem hb)
    simp only [Outcome.bind_ok, if_pos h1, if_pos hP]
    exact ⟨_, rfl⟩

variable {m : Mem} {es : List E} (hl : es.length = m.cts.length)
include hl

theorem bgvOp_ok (K : Consts E) (v : Given) (x : RCt) (e : E) (op : RnsCtStore.Op) (h : (op.run v m x).2 = .ok ()) :
    ∃ e', bgvOp K es e op = .ok e' := by
  cases op with
  | add b => obtain ⟨y, hy, -⟩ := withTemp_ok h; obtain ⟨z, hz⟩ := rd_other hl hy; exact ⟨_, by rw [bgvOp, hz]; rfl⟩
  | sub b => obtain ⟨y, hy, -⟩ := withTemp_ok h; obtain ⟨z, hz⟩ := rd_other hl hy; exact ⟨_, by rw [bgvOp, hz]; rfl⟩
  | fused b i => obtain ⟨y, hy, -⟩ := withTemp_ok h; obtain ⟨z, hz⟩ := rd_other hl hy; exact ⟨_, by rw [bgvOp, hz]; rfl⟩
  | _ => exact ⟨_, rfl⟩

theorem bfvOp_ok (K : Consts E) (est : Estimate) (v : Given) (x : RCt) (e : E) (op : RnsBfvStore.Op)
    (h : (op.run est v m x).2 = .ok ()) : ∃ e', bfvOp K es e op = .ok e' := by
  cases op with
  | add b => obtain ⟨y, hy, -⟩ := withTemp_ok h; obtain ⟨z, hz⟩ := rd_other hl hy; exact ⟨_, by rw [bfvOp, hz]; rfl⟩
  | sub b => obtain ⟨y, hy, -⟩ := withTemp_ok h; obtain ⟨z, hz⟩ := rd_other hl hy; exact ⟨_, by rw [bfvOp, hz]; rfl⟩
  | fused b i => obtain ⟨y, hy, -⟩ := withTemp_ok h; obtain ⟨z, hz⟩ := rd_other hl hy; exact ⟨_, by rw [bfvOp, hz]; rfl⟩
  | _ => exact ⟨_, rfl⟩

/-- The product of ciphertexts looks up a second one. -/
theorem fits_mul {a b : ℕ} {g : RCt → RCt → Outcome RCt} :
    Fits m (withTemp m (rd m.cts a) fun x => withTemp m (rd m.cts b) fun y => newCt m (g x y))
      (.push (do return (← rd es a) * (← rd es b))) := by
  refine fits_new fun x hx => ⟨rd m.cts b >>= g x, ?_, fun z hz => ?_⟩
  · cases rd m.cts b <;> rfl
  · obtain ⟨y, hy, -⟩ := bind_inv hz
    obtain ⟨e1, h1⟩ := rd_other hl hx
    obtain ⟨e2, h2⟩ := rd_other hl hy
    exact ⟨e1 * e2, by rw [h1, h2]; rfl⟩

theorem bgv_fits [Sqrt E] {P : RParams E} (hP : P.logN < 31) (v : Given) {k : RnsCtStore.Call} (hk : BgvUsable v [k]) :
    Fits m (k.run v m) (bgvEffect (consts P) v m es k) := by
  cases k with
  | encode u lev => exact fits_encode
  | input i => exact fits_newCt fun _ _ => ⟨_, rfl⟩
  | received i => exact fits_newCt fun _ _ => ⟨_, rfl⟩
  | copy a => exact fits_newCt fun z hz => rd_other hl hz
  | opNew a op =>
    refine fits_new fun x hx => ⟨_, rfl, fun z hz => ?_⟩
    obtain ⟨e, he⟩ := rd_other hl hx
    rw [he, Outcome.bind_ok]
    exact bgvOp_ok hl _ v x e op (value_ok hz)
  | opIn a op =>
    refine fits_set fun x hx hz => ?_
    obtain ⟨e, he⟩ := rd_other hl hx
    rw [he, Outcome.bind_ok]
    exact bgvOp_ok hl _ v x e op hz
  | mul a b => exact fits_mul hl
  | substitute a j => exact fits_new fun x hx => ⟨_, rfl, fun _ _ => rd_other hl hx⟩
  | relin a lev =>
    refine fits_new fun x hx => ⟨_, rfl, fun _ _ => ?_⟩
    obtain ⟨e, he⟩ := rd_other hl hx
    rw [hx, he, Outcome.bind_ok, Outcome.bind_ok]
    exact afterSwitch_ok hP (hk.1 a lev (List.mem_singleton.mpr rfl)) _ _
  | galois a lev p =>
    refine fits_new fun x hx => ⟨_, rfl, fun _ _ => ?_⟩
    obtain ⟨e, he⟩ := rd_other hl hx
    rw [he, Outcome.bind_ok]
    exact afterSwitch_ok hP (hk.2 a lev p (List.mem_singleton.mpr rfl)) _ _

theorem bfv_fits [Sqrt E] {P : RParams E} (hP : P.logN < 31) (est : Estimate) (v : Given) {k : RnsBfvStore.Call}
    (hk : BfvUsable v [k]) : Fits m (k.run est v m) (bfvEffect (consts P) v m es k) := by
  cases k with
  | encode u lev scaled => exact fits_encode
  | input i => exact fits_newCt fun _ _ => ⟨_, rfl⟩
  | received i => exact fits_newCt fun _ _ => ⟨_, rfl⟩
  | copy a => exact fits_newCt fun z hz => rd_other hl hz
  | opNew a op =>
    refine fits_new fun x hx => ⟨_, rfl, fun z hz => ?_⟩
    obtain ⟨e, he⟩ := rd_other hl hx
    rw [he, Outcome.bind_ok]
    exact bfvOp_ok hl _ est v x e op (value_ok hz)
  | opIn a op =>
    refine fits_set fun x hx hz => ?_
    obtain ⟨e, he⟩ := rd_other hl hx
    rw [he, Outcome.bind_ok]
    exact bfvOp_ok hl _ est v x e op hz
  | mul a b => exact fits_mul hl
  | substitute a j => exact fits_new fun x hx => ⟨_, rfl, fun _ _ => rd_other hl hx⟩
  | relin a lev =>
    refine fits_new fun x hx => ⟨_, rfl, fun _ _ => ?_⟩
    obtain ⟨e, he⟩ := rd_other hl hx
    rw [hx, he, Outcome.bind_ok, Outcome.bind_ok]
    exact afterSwitch_ok hP (hk.1 a lev (List.mem_singleton.mpr rfl)) _ _
  | galois a lev p =>
    refine fits_new fun x hx => ⟨_, rfl, fun _ _ => ?_⟩
    obtain ⟨e, he⟩ := rd_other hl hx
    rw [he, Outcome.bind_ok]
    exact afterSwitch_ok hP (hk.2 a lev p (List.mem_singleton.mpr rfl)) _ _

end

end Shell.RnsEstimate
