import Verif.Lemmas.WordCt
/-!
The object after a rejected call on stored words.
-/

namespace Shell.WordCt
open Rns Rns.Res Spec
variable {E : Type} {p : MParams}

section
variable {α β : Type}

theorem forEach_unchanged {f : α → β → Res α} {cs : List α} {ys : List β}
    (hf : (∀ c ∈ cs, ∀ y ∈ ys, ∃ e, f c y = (c, .err e)) ∨ ∀ c ∈ cs, ∀ y ∈ ys, ∃ r, f c y = (r, .ok ())) :
    Unchanged cs (forEach f cs ys) := by
  rcases hf with hf | hf
  · cases ys with
    | nil => intro e he; cases cs <;> cases he
    | cons y ys =>
      cases cs with
      | nil => intro e he; cases he
      | cons c cs =>
        obtain ⟨e, he⟩ := hf c (by simp) y (by simp)
        intro e' he'
        simp only [forEach, he]
  · have H : ∀ (ys : List β) (cs : List α), (∀ c ∈ cs, ∀ y ∈ ys, ∃ r, f c y = (r, .ok ())) →
        ∀ e, (forEach f cs ys).2 ≠ .err e := by
      intro ys
      induction ys with
      | nil => intro cs _ e he; cases cs <;> cases he
      | cons y ys ih =>
        intro cs hf e he
        cases cs with
        | nil => cases he
        | cons c cs =>
          obtain ⟨r, hr⟩ := hf c (by simp) y (by simp)
          simp only [forEach, hr] at he
          exact ih cs (fun c hc y hy => hf c (by simp [hc]) y (by simp [hy])) e he
    intro e he
    exact absurd he (H ys cs hf e)

theorem forBoth_unchanged {f : α → β → Res α} {g : β → Outcome α} {cs : List α} {ys : List β}
    (hf : (∀ c ∈ cs, ∀ y ∈ ys, ∃ e, f c y = (c, .err e)) ∨
      ((∀ c ∈ cs, ∀ y ∈ ys, ∃ r, f c y = (r, .ok ())) ∧ (cs ≠ [] → ∀ y ∈ ys, ∃ r, g y = .ok r)))
    (hg : (∀ y ∈ ys, ∃ e, g y = .err e) ∨ ∀ y ∈ ys, ∃ r, g y = .ok r) :
    Unchanged cs (forBoth f g cs ys) := by
  have Hg : ∀ (ys : List β), (∀ y ∈ ys, ∃ r, g y = .ok r) → ∀ e, (forBoth f g [] ys).2 ≠ .err e := by
    intro ys
    induction ys with
    | nil => intro _ e he; cases he
    | cons y ys ih =>
      intro hf e he
      obtain ⟨r, hr⟩ := hf y (by simp)
      simp only [forBoth, hr] at he
      exact ih (fun y hy => hf y (by simp [hy])) e he
  have Hf : ∀ (ys : List β) (cs : List α), (∀ c ∈ cs, ∀ y ∈ ys, ∃ r, f c y = (r, .ok ())) →
      (∀ y ∈ ys, ∃ r, g y = .ok r) → ∀ e, (forBoth f g cs ys).2 ≠ .err e := by
    intro ys
    induction ys with
    | nil => intro cs _ _ e he; cases cs <;> cases he
    | cons y ys ih =>
      intro cs hf hg e he
      cases cs with
      | nil => exact Hg _ hg e he
      | cons c cs =>
        obtain ⟨r, hr⟩ := hf c (by simp) y (by simp)
        simp only [forBoth, hr] at he
        exact ih cs (fun c hc y hy => hf c (by simp [hc]) y (by simp [hy])) (fun y hy => hg y (by simp [hy])) e he
  cases cs with
  | nil =>
    rcases hg with hg | hg
    · cases ys with
      | nil => intro e he; cases he
      | cons y ys =>
        obtain ⟨e, he⟩ := hg y (by simp)
        intro e' he'
        simp only [forBoth, he]
    · intro e he
      exact absurd he (Hg ys hg e)
  | cons c cs =>
    rcases hf with hf | ⟨hf, hg'⟩
    · cases ys with
      | nil => intro e he; cases he
      | cons y ys =>
        obtain ⟨e, he⟩ := hf c (by simp) y (by simp)
        intro e' he'
        simp only [forBoth, he]
    · intro e he
      exact absurd he (Hf ys _ hf (hg' (by simp)) e)

theorem all_unchanged {f : α → Res α} {cs : List α}
    (hf : (∀ c ∈ cs, ∃ e, f c = (c, .err e)) ∨ ∀ c ∈ cs, ∃ r, f c = (r, .ok ())) :
    Unchanged cs (Res.all f cs) := by
  rcases hf with hf | hf
  · cases cs with
    | nil => intro e he; cases he
    | cons c cs =>
      obtain ⟨e, he⟩ := hf c (by simp)
      intro e' he'
      simp only [Res.all, he]
  · have H : ∀ (cs : List α), (∀ c ∈ cs, ∃ r, f c = (r, .ok ())) → ∀ e, (Res.all f cs).2 ≠ .err e := by
      intro cs
      induction cs with
      | nil => intro _ e he; cases he
      | cons c cs ih =>
        intro hf e he
        obtain ⟨r, hr⟩ := hf c (by simp)
        simp only [Res.all, hr] at he
        exact ih (fun c hc => hf c (by simp [hc])) e he
    intro e he
    exact absurd he (H cs hf e)

/-- A changed component list followed by statements that cannot fail. -/
theorem onC_unchanged {x : Obj E} {r : Res (List (List ℕ))} {f : Obj E → Res (Obj E)} (h : Unchanged x.c r)
    (hf : ∀ y, (f y).2 = .ok ()) : Unchanged x ((onC x r).andThen f) := by
  intro e he
  unfold Res.andThen at he ⊢
  cases hr : r.2 with
  | ok u =>
    have : (onC x r).2 = .ok u := hr
    rw [this] at he
    dsimp only at he
    rw [hf] at he
    cases he
  | ub u =>
    have : (onC x r).2 = .ub u := hr
    rw [this] at he
    cases he
  | err e' =>
    have h1 : (onC x r).2 = .err e' := hr
    rw [h1]
    show ({ x with c := r.1 } : Obj E) = x
    rw [h e' hr]
end

/-! ### Single polynomials of given lengths -/

theorem vec_add (x y : List ℕ) : (x.length = y.length ∧ ∃ r, vec (Poly.addInPlace p x y) = (r, .ok ())) ∨
    (x.length ≠ y.length ∧ vec (Poly.addInPlace p x y) = (x, .err .invalidArgument)) := by
  unfold Poly.addInPlace
  by_cases h : x.length = y.length
  · exact Or.inl ⟨h, _, by rw [if_neg (by simpa using h)]; rfl⟩
  · exact Or.inr ⟨h, by rw [if_pos h]; rfl⟩

theorem vec_sub (x y : List ℕ) : (x.length = y.length ∧ ∃ r, vec (Poly.subInPlace p x y) = (r, .ok ())) ∨
    (x.length ≠ y.length ∧ vec (Poly.subInPlace p x y) = (x, .err .invalidArgument)) := by
  unfold Poly.subInPlace
  by_cases h : x.length = y.length
  · exact Or.inl ⟨h, _, by rw [if_neg (by simpa using h)]; rfl⟩
  · exact Or.inr ⟨h, by rw [if_pos h]; rfl⟩

theorem vec_mul (x y : List ℕ) : (x.length = y.length ∧ ∃ r, Poly.mulInPlace p x y = (r, none)) ∨
    (x.length ≠ y.length ∧ Poly.mulInPlace p x y = (x, some .invalidArgument)) := by
  unfold Poly.mulInPlace
  by_cases h : x.length = y.length
  · exact Or.inl ⟨h, _, by rw [if_neg (by simpa using h)]⟩
  · exact Or.inr ⟨h, by rw [if_pos h]⟩

theorem sum_unchanged {op : MParams → List ℕ → List ℕ → Poly.InPlace}
    (hop : ∀ x y, (x.length = y.length ∧ ∃ r, vec (op p x y) = (r, .ok ())) ∨
      (x.length ≠ y.length ∧ vec (op p x y) = (x, .err .invalidArgument)))
    {n n' : ℕ} {cs ys : List (List ℕ)} (hc : ∀ v ∈ cs, v.length = n) (hy : ∀ v ∈ ys, v.length = n') :
    Unchanged cs (forEach (fun a b => vec (op p a b)) cs ys) := by
  apply forEach_unchanged
  by_cases h : n = n'
  · right
    intro c hc' y hy'
    rcases hop c y with ⟨-, h1⟩ | ⟨h1, -⟩
    · exact h1
    · exact absurd (by rw [hc c hc', hy y hy', h]) h1
  · left
    intro c hc' y hy'
    rcases hop c y with ⟨h1, -⟩ | ⟨-, h1⟩
    · exact absurd (by rw [← hc c hc', ← hy y hy', h1]) h
    · exact ⟨_, h1⟩

/-- Addition and subtraction. -/
theorem addSub_unchanged [Add E] [Mul E] [Div E] [NatCast E] {op : MParams → List ℕ → List ℕ → Poly.InPlace}
    (hop : ∀ x y, (x.length = y.length ∧ ∃ r, vec (op p x y) = (r, .ok ())) ∨
      (x.length ≠ y.length ∧ vec (op p x y) = (x, .err .invalidArgument)))
    {n n' : ℕ} {x : Obj E} {ys : List (List ℕ)} (hc : ∀ v ∈ x.c, v.length = n) (hy : ∀ v ∈ ys, v.length = n')
    (h : n' = n ∨ ys.length ≤ x.c.length) {f : Obj E → Res (Obj E)} (hf : ∀ y, (f y).2 = .ok ()) :
    Unchanged x ((onC x (forEach (fun a b => vec (op p a b)) (pad x.c ys) ys)).andThen f) := by
  by_cases hl : ys.length ≤ x.c.length
  · have : pad x.c ys = x.c := by unfold pad; rw [if_neg (by omega)]
    rw [this]
    exact onC_unchanged (sum_unchanged hop hc hy) hf
  · have hn : n' = n := by tauto
    subst hn
    have hpad : ∀ v ∈ pad x.c ys, v.length = n' := by
      unfold pad
      rw [if_pos (by omega)]
      intro v hv
      rcases List.mem_append.mp hv with hv | hv
      · exact hc v hv
      · obtain ⟨-, rfl⟩ := List.mem_replicate.mp hv
        cases ys with
        | nil => simp at hl
        | cons y ys => simpa using hy y (by simp)
    have hne : ∀ e, (forEach (fun a b => vec (op p a b)) (pad x.c ys) ys).2 ≠ .err e := by
      have H : ∀ (ys cs : List (List ℕ)), (∀ v ∈ cs, v.length = n') → (∀ v ∈ ys, v.length = n') →
          ∀ e, (forEach (fun a b => vec (op p a b)) cs ys).2 ≠ .err e := by
        intro ys
        induction ys with
        | nil => intro cs _ _ e he; cases cs <;> cases he
        | cons y ys ih =>
          intro cs hc hy e he
          cases cs with
          | nil => cases he
          | cons c cs =>
            rcases hop c y with ⟨-, r, hr⟩ | ⟨h1, -⟩
            · simp only [forEach, hr] at he
              exact ih cs (fun v hv => hc v (by simp [hv])) (fun v hv => hy v (by simp [hv])) e he
            · exact h1 (by rw [hc c (by simp), hy y (by simp)])
      exact H ys _ hpad hy
    intro e he
    exfalso
    revert he
    unfold Res.andThen
    have : ∀ r : Res (List (List ℕ)), (onC x r).2 = r.2 := fun _ => rfl
    rw [this]
    cases hr : (forEach (fun a b => vec (op p a b)) (pad x.c ys) ys).2 with
    | ok u => dsimp only; rw [hf]; intro he; cases he
    | err e' => exact absurd hr (hne e')
    | ub u => intro he; cases he

theorem lazyCreate_ok (hlm : ∃ k, Lazy.logMaxLevel p = .ok k) {m : ℕ} {f : List ℕ} (hf : f.length = m) {as : List (List ℕ)}
    (ha : ∀ v ∈ as, v.length = m) (zs : List Lazy.LPoly) :
    ∀ e, (forBoth (fun (s : Lazy.LPoly) _ => (s, .ok ())) (fun a => Lazy.create p a f) zs as).2 ≠ .err e := by
  induction as generalizing zs with
  | nil => intro e he; cases zs <;> cases he
  | cons a as ih =>
    intro e he
    have ih := fun zs => ih (fun v hv => ha v (by simp [hv])) zs
    cases zs with
    | nil =>
      obtain ⟨k, hk⟩ := hlm
      have : Lazy.create p a f = .ok ⟨List.zipWith (Lazy.prod p) a f, 1, 2 ^ k % 2 ^ (2 * p.w)⟩ := by
        unfold Lazy.create
        rw [if_neg (by rw [ha a (by simp), hf]; simp), hk]
        rfl
      simp only [forBoth, this] at he
      exact ih _ e he
    | cons z zs =>
      simp only [forBoth] at he
      exact ih _ e he

theorem lazyLoop_ok {m : ℕ} {f : List ℕ} (hf : f.length = m) {as : List (List ℕ)} (ha : ∀ v ∈ as, v.length = m)
    {zs : List Lazy.LPoly} (hz : ∀ s ∈ zs, s.coeffs.length = m) : ∀ e, (lazyLoop p f zs as).2 ≠ .err e := by
  induction zs generalizing as with
  | nil => intro e he; cases he
  | cons z zs ih =>
    intro e he
    cases as with
    | nil => cases he
    | cons a as =>
      have : ∃ r, lazyStep p f z a = (r, .ok ()) := by
        unfold lazyStep Lazy.fusedMulAdd
        rw [if_neg (by rw [ha a (by simp), hf, hz z (by simp)]; simp)]
        exact ⟨_, rfl⟩
      obtain ⟨r, hr⟩ := this
      simp only [lazyLoop, hr] at he
      exact ih (fun v hv => ha v (by simp [hv])) (fun v hv => hz v (by simp [hv])) e he

/-- A rejected call leaves the object as it was. -/
theorem run_unchanged [Add E] [Mul E] [Div E] [NatCast E] (hlm : ∃ k, Lazy.logMaxLevel p = .ok k) {B : E} {n m : ℕ} {x : Obj E} {op : Call E}
    (hx : Level n m x) (hop : Harmless n m x op) : Unchanged x (op.run p B x) := by
  cases op with
  | add y =>
    obtain ⟨n', h1, h2⟩ := hop
    show Unchanged x (addIn p x y)
    unfold addIn
    split_ifs
    · intro e _; rfl
    · exact addSub_unchanged vec_add hx.c h1 h2 fun _ => rfl
  | sub y =>
    obtain ⟨n', h1, h2⟩ := hop
    show Unchanged x (subIn p x y)
    unfold subIn
    split_ifs
    · intro e _; rfl
    · exact addSub_unchanged vec_sub hx.c h1 h2 fun _ => rfl
  | absorb f =>
    show Unchanged x (absorbIn p B x f)
    refine onC_unchanged (all_unchanged ?_) fun _ => rfl
    by_cases h : n = f.length
    · right
      intro c hc
      rcases vec_mul (p := p) c f with ⟨-, r, h1⟩ | ⟨h1, -⟩
      · exact ⟨r, by rw [h1]; rfl⟩
      · exact absurd (by rw [hx.c c hc, h]) h1
    · left
      intro c hc
      rcases vec_mul (p := p) c f with ⟨h1, -⟩ | ⟨-, h1⟩
      · exact absurd (by rw [← h1, hx.c c hc]) h
      · exact ⟨_, by rw [h1]; rfl⟩
  | absorbScalar s =>
    show Unchanged x (absorbScalarIn p x s)
    exact onC_unchanged (all_unchanged (Or.inr fun c _ => ⟨_, rfl⟩)) fun _ => rfl
  | fused a b =>
    obtain ⟨n', h1⟩ := hop
    show Unchanged x (fusedIn p B x a b)
    unfold fusedIn
    split_ifs
    · intro e _; rfl
    refine onC_unchanged (forBoth_unchanged ?_ ?_) fun _ => rfl
    · by_cases h : n ≠ n' ∨ n ≠ b.length
      · left
        intro c hc y hy
        refine ⟨.invalidArgument, ?_⟩
        unfold Poly.fusedMulAddInPlace
        rw [if_pos (by rw [hx.c c hc, h1 y hy]; exact h)]
        rfl
      · right
        constructor
        · intro c hc y hy
          unfold Poly.fusedMulAddInPlace
          rw [if_neg (by rw [hx.c c hc, h1 y hy]; exact h)]
          exact ⟨_, rfl⟩
        · intro _ y hy
          rcases vec_mul (p := p) y b with ⟨-, r, h2⟩ | ⟨h2, -⟩
          · exact ⟨r, Word.copy_ok h2⟩
          · exact absurd (by rw [h1 y hy]; omega) h2
    · by_cases h : n' = b.length
      · right
        intro y hy
        rcases vec_mul (p := p) y b with ⟨-, r, h2⟩ | ⟨h2, -⟩
        · exact ⟨r, Word.copy_ok h2⟩
        · exact absurd (by rw [h1 y hy]; omega) h2
      · left
        intro y hy
        rcases vec_mul (p := p) y b with ⟨h2, -⟩ | ⟨-, h2⟩
        · exact absurd (by rw [← h2, h1 y hy]) h
        · exact ⟨.invalidArgument, by unfold Poly.mul; rw [h2]; rfl⟩
  | fusedConst a b =>
    obtain ⟨n', h1⟩ := hop
    show Unchanged x (fusedConstIn p B x a b)
    unfold fusedConstIn
    split_ifs
    · intro e _; rfl
    have hg : ∀ y ∈ a.c, (n' = b.c.length ∧ b.c.length = b.cb.length → ∃ r, Poly.mulConstant p y b = .ok r) ∧
        (¬ (n' = b.c.length ∧ b.c.length = b.cb.length) → ∃ e, Poly.mulConstant p y b = .err e) := by
      intro y hy
      unfold Poly.mulConstant Poly.mulConstantInPlace
      rw [h1 y hy]
      constructor
      · intro h
        rw [if_neg (by omega)]
        exact ⟨_, rfl⟩
      · intro h
        rw [if_pos (by omega)]
        exact ⟨_, rfl⟩
    refine onC_unchanged (forBoth_unchanged ?_ ?_) fun _ => rfl
    · by_cases h : n ≠ n' ∨ n ≠ b.c.length ∨ n ≠ b.cb.length
      · left
        intro c hc y hy
        refine ⟨.invalidArgument, ?_⟩
        unfold Poly.fusedMulConstantAddInPlace
        rw [if_pos (by rw [hx.c c hc, h1 y hy]; exact h)]
        rfl
      · right
        constructor
        · intro c hc y hy
          unfold Poly.fusedMulConstantAddInPlace
          rw [if_neg (by rw [hx.c c hc, h1 y hy]; exact h)]
          exact ⟨_, rfl⟩
        · intro _ y hy
          exact (hg y hy).1 (by omega)
    · by_cases h : n' = b.c.length ∧ b.c.length = b.cb.length
      · right; exact fun y hy => (hg y hy).1 h
      · left; exact fun y hy => (hg y hy).2 h
  | fusedLazily a f =>
    obtain ⟨h1, h2⟩ := hop
    show Unchanged x (fusedLazilyIn p B x a f)
    unfold fusedLazilyIn
    split_ifs with hp h0
    · intro e _; rfl
    · intro e he; cases he
    · intro e he
      exfalso
      revert he
      dsimp only
      split_ifs with hz
      · exact lazyCreate_ok hlm h1 h2 x.lazy e
      · unfold lazyPad
        split_ifs with hl
        · obtain ⟨k, hk⟩ := hlm
          have hlen : (a.c.headD []).length = m := by
            cases hac : a.c with
            | nil => rw [hac] at h0; simp at h0
            | cons v vs => simpa using h2 v (by rw [hac]; simp)
          have : Lazy.createEmpty p (a.c.headD []).length =
              .ok ⟨List.replicate m 0, 0, 2 ^ k % 2 ^ (2 * p.w)⟩ := by
            unfold Lazy.createEmpty
            rw [hk, hlen]
            rfl
          rw [this]
          refine lazyLoop_ok h1 h2 ?_ e
          intro s hs
          rcases List.mem_append.mp hs with hs | hs
          · exact hx.lazy s hs
          · obtain ⟨-, rfl⟩ := List.mem_replicate.mp hs
            simp
        · exact lazyLoop_ok h1 h2 hx.lazy e
  | merge =>
    show Unchanged x (mergeIn p x)
    unfold mergeIn
    split_ifs
    · intro e _; rfl
    have hlen : ∀ s ∈ x.lazy, (Lazy.exportPoly p s).length = m := fun s hs => by
      unfold Lazy.exportPoly; rw [List.length_map, hx.lazy s hs]
    refine onC_unchanged (forBoth_unchanged ?_ (Or.inr fun y _ => ⟨_, rfl⟩)) fun _ => rfl
    by_cases h : n = m
    · right
      refine ⟨fun c hc y hy => ?_, fun _ y _ => ⟨_, rfl⟩⟩
      rcases vec_add (p := p) c (Lazy.exportPoly p y) with ⟨-, h1⟩ | ⟨h1, -⟩
      · exact h1
      · exact absurd (by rw [hx.c c hc, hlen y hy, h]) h1
    · left
      intro c hc y hy
      rcases vec_add (p := p) c (Lazy.exportPoly p y) with ⟨h1, -⟩ | ⟨-, h1⟩
      · exact absurd (by rw [← hx.c c hc, h1, hlen y hy]) h
      · exact ⟨_, h1⟩

end Shell.WordCt
