import Verif.Spec.Available
import Verif.Lemmas.RnsKeySwitch
import Verif.Lemmas.LazyPolynomial
import Verif.Props.RnsEncrypt
/-!
# Calls that succeed
-/

namespace Shell
open Spec Rns Sampler
variable {σ τ α β : Type} {G : Gen σ} {w l : ℕ} {ms : List Modulus} {d : Prop}

theorem Spec.OkUnless.of_ok {x : Outcome α} (h : ∃ a, x = .ok a) : OkUnless d x := .inl h

theorem Spec.OkUnless.mono {d' : Prop} {x : Outcome α} (h : OkUnless d x) (hd : d → d') : OkUnless d' x :=
  h.imp_right fun a => ⟨hd a.1, a.2⟩

theorem Spec.OkUnless.bind {x : Outcome α} {f : α → Outcome β} (h : OkUnless d x)
    (hf : ∀ a, x = .ok a → OkUnless d (f a)) : OkUnless d (x >>= f) := by
  rcases h with ⟨a, h⟩ | ⟨hd, h⟩
  · rw [h, Outcome.bind_ok]; exact hf a h
  · rw [h]; exact .inr ⟨hd, rfl⟩

theorem Spec.OkUnless.loop {n : ℕ} {f : ℕ → α → Outcome α} (s : α) (hf : ∀ i s, OkUnless d (f i s)) :
    OkUnless d (Shell.loop n f s) := by
  suffices H : ∀ k i s, OkUnless d (loopFrom f k i s) from H n 0 s
  intro k
  induction k with
  | zero => exact fun i s => .inl ⟨s, rfl⟩
  | succ k ih => exact fun i s => (hf i s).bind fun a _ => ih _ _

/-! ### Samplers -/

theorem shl_lt {w x k : ℕ} (h : k < w) : ∃ r, Transcription.shl w x k = .ok r :=
  ⟨_, by unfold Transcription.shl; rw [if_pos (lt_of_lt_of_le h (le_max_left _ _))]⟩

theorem generateLoop_delivers (hD : Delivers G) {w : ℕ} : ∀ {fuel bits : ℕ}, bits ≤ fuel → bits < w → ∀ (rand : ℕ) (s : σ),
    ∃ r, generateLoop G w fuel bits rand s = .ok r := by
  intro fuel
  induction fuel with
  | zero =>
    intro bits h _ rand s
    exact ⟨_, by unfold generateLoop; rw [if_pos (by omega)]⟩
  | succ fuel ih =>
    intro bits h hw rand s
    unfold generateLoop
    split_ifs with h0 h8
    · exact ⟨_, rfl⟩
    · obtain ⟨r, hr⟩ := (hD s).1
      obtain ⟨m, hm⟩ := shl_lt (x := 1) hw
      obtain ⟨hi, hh⟩ := shl_lt (x := rand) hw
      rw [hr, Outcome.bind_ok]
      dsimp only
      rw [hm, Outcome.bind_ok, hh, Outcome.bind_ok]
      exact ⟨_, rfl⟩
    · obtain ⟨r, hr⟩ := (hD s).2
      have hk : min bits (min w 64) < w := by omega
      obtain ⟨m, hm⟩ := shl_lt (x := 1) hk
      obtain ⟨hi, hh⟩ := shl_lt (x := rand) hk
      rw [hr, Outcome.bind_ok]
      dsimp only
      rw [hm, Outcome.bind_ok, hh, Outcome.bind_ok]
      exact ih (by omega) (by omega) _ _

theorem importRandom_delivers (hD : Delivers G) {m : Modulus} (hm : GoodModulus w l m) (hw : w ≤ 128) :
    ∀ (fuel : ℕ) (s : σ), OkUnless True (importRandom G m.p fuel s) := by
  have g := hm.good
  have hlog : m.p.logModulus ≤ w - 2 := (Lazy.logGood_of_create hm.create hw).le
  intro fuel
  induction fuel with
  | zero => exact fun s => .inr ⟨trivial, rfl⟩
  | succ fuel ih =>
    intro s
    unfold importRandom generateRandomInt
    have h3 := g.pos
    have h4 := g.lt
    have hw2 : 2 < w := by
      by_contra hc
      have : w - 2 = 0 := by omega
      have h5 : 2 ^ w ≤ 2 ^ 2 := Nat.pow_le_pow_right (by norm_num) (by omega)
      omega
    obtain ⟨r, hr⟩ := generateLoop_delivers hD (w := m.p.w) (le_refl m.p.logModulus) (by rw [g.hw]; omega) 0 s
    rw [hr, Outcome.bind_ok]
    dsimp only
    split_ifs
    · exact ih _
    · exact .inl ⟨_, rfl⟩

theorem importRandom_okUnless (hD : Delivers G) (hg : ∀ m ∈ ms, GoodModulus w l m) (hw : w ≤ 128) (fuel : ℕ) :
    ∀ m ∈ ms, ∀ s, OkUnless (¬Accepts G fuel ms) (importRandom G m.p fuel s) := by
  intro m hm s
  by_cases h : Accepts G fuel ms
  · exact .inl (h m hm s)
  · exact (importRandom_delivers hD (hg m hm) hw fuel s).mono fun _ => h

theorem sampleUniform_okUnless {fuel : ℕ} (h : ∀ m ∈ ms, ∀ s, OkUnless d (importRandom G m.p fuel s)) (hne : ms ≠ [])
    (hl : 1 ≤ l) (hl' : l ≤ 15) (s : σ) : OkUnless d (sampleUniform G fuel l ms s) := by
  have huv : ∀ n (ms : List Modulus), (∀ m ∈ ms, ∀ s, OkUnless d (importRandom G m.p fuel s)) → ∀ s,
      OkUnless d (uniformVectors G fuel n ms s) := by
    intro n ms
    induction ms with
    | nil => exact fun _ s => .inl ⟨_, rfl⟩
    | cons m ms ih =>
      intro h s
      unfold uniformVectors
      refine .bind (.loop _ fun i r => ?_) fun a _ => ?_
      · refine .bind (h m (by simp) r.2) fun a _ => .inl ⟨_, rfl⟩
      · dsimp only
        exact .bind (ih (fun m hm => h m (by simp [hm])) _) fun a _ => .inl ⟨_, rfl⟩
  unfold sampleUniform shl1
  rw [if_neg (by omega), if_neg (by simpa using hne), if_pos (by omega), Outcome.bind_ok]
  exact .bind (huv _ _ h _) fun a _ => .inl ⟨_, rfl⟩

theorem errorLoop_delivers (hD : Delivers G) {w : ℕ} : ∀ {fuel k : ℕ}, k ≤ fuel → ∀ (c : ℕ) (s : σ),
    ∃ r, errorLoop G w fuel k c s = .ok r := by
  intro fuel
  induction fuel with
  | zero =>
    intro k h c s
    exact ⟨_, by unfold errorLoop; rw [if_pos (by omega)]⟩
  | succ fuel ih =>
    intro k h c s
    unfold errorLoop
    split_ifs with h0 h64 h8
    · exact ⟨_, rfl⟩
    · obtain ⟨⟨r, s1⟩, hr⟩ := (hD s).2
      obtain ⟨⟨r', s2⟩, hr'⟩ := (hD s1).2
      rw [hr, Outcome.bind_ok]
      dsimp only
      rw [hr', Outcome.bind_ok]
      exact ih (by omega) _ _
    · obtain ⟨⟨r, s1⟩, hr⟩ := (hD s).1
      obtain ⟨⟨r', s2⟩, hr'⟩ := (hD s1).1
      rw [hr, Outcome.bind_ok]
      dsimp only
      rw [hr', Outcome.bind_ok]
      exact ih (by omega) _ _
    · obtain ⟨⟨r, s1⟩, hr⟩ := (hD s).1
      obtain ⟨⟨r', s2⟩, hr'⟩ := (hD s1).1
      dsimp only
      rw [hr, Outcome.bind_ok]
      dsimp only
      rw [hr', Outcome.bind_ok]
      exact ⟨_, rfl⟩

theorem sampleError_delivers (hD : Delivers G) (p : MParams) (n : ℕ) {v : ℕ} (hv : v ≤ 256) (s : σ) :
    ∃ r, sampleError G p n v s = .ok r := by
  unfold sampleError kMaxVariance
  rw [if_neg (by omega)]
  obtain ⟨r, h, -⟩ := loop_ok (fun _ (r : List ℕ × σ) => r.1.length = n) (n := n)
    (f := fun i (r : List ℕ × σ) => do
      let k := v <<< 1
      let (c, s) ← errorLoop G p.w k k p.modulus r.2
      let coeffs ← wr r.1 i (Mont.importInt p (errorReduce p c))
      .ok (coeffs, s)) (s := (List.replicate n 0, s)) (by simp) (fun j r hj hr => by
    obtain ⟨⟨c, s1⟩, hc⟩ := errorLoop_delivers hD (w := p.w) (le_refl (v <<< 1)) p.modulus r.2
    refine ⟨(r.1.set j (Mont.importInt p (errorReduce p c)), s1), ?_, by simpa using hr⟩
    dsimp only at hr ⊢
    rw [hc, Outcome.bind_ok]
    dsimp only
    unfold wr
    rw [if_pos (by omega), Outcome.bind_ok])
  exact ⟨r, h⟩

theorem sampleErr_delivers (hD : Delivers G) (hG : Words G) (hg : ∀ m ∈ ms, GoodModulus w l m) (hne : ms ≠ [])
    (hl : 1 ≤ l) (hl' : l ≤ 15) {v : ℤ} (h0 : 0 < v) (h1 : v ≤ 256) (hv : ∀ m ∈ ms.head?, 2 * v ≤ m.N) (s : σ) :
    ∃ r, sampleErr G l v ms s = .ok r := by
  unfold sampleErr shl1
  rw [if_neg (by omega), if_neg (by omega)]
  cases ms with
  | nil => exact absurd rfl hne
  | cons m ms =>
    dsimp only
    rw [if_pos (by omega), Outcome.bind_ok]
    obtain ⟨⟨c, s1⟩, hc⟩ := sampleError_delivers hD m.p (2 ^ (l : ℤ).toNat) (v := v.toNat) (by omega) s
    rw [hc, Outcome.bind_ok]
    have hm := hg m (by simp)
    haveI : NeZero m.N := ⟨hm.prime.ne_zero⟩
    have hvm := hv m (by simp)
    obtain ⟨c1, c2⟩ := c38_range_partial G hG hm.create _ _ (by omega) _ _ _ hc
    obtain ⟨e, e1, e2⟩ := rep_of_small (B := 2 * v) (n := 2 ^ l) hm (by simpa using c1) (fun a ha => by
      obtain ⟨h1, e, h3, h4, h5⟩ := c2 a ha
      exact ⟨h1, e, abs_le.mpr ⟨by omega, by omega⟩, h5⟩)
    obtain ⟨r, r1, r2, r3⟩ := repr_convertBalancedFrom hm.create hg (by simp) e2
    dsimp only
    rw [r1, Outcome.bind_ok]
    exact ⟨_, rfl⟩

/-! ### Keys -/

variable {Gp : Gen τ} {k : RKey} {S S' : Fin (2 ^ l) → ℤ} {v : ℤ} {t : ℕ}

theorem samplePads_okUnless {fuel : ℕ} (h : ∀ m ∈ ms, ∀ s, OkUnless d (importRandom G m.p fuel s)) (hne : ms ≠ [])
    (hl : 1 ≤ l) (hl' : l ≤ 15) (n : ℕ) : ∀ s : σ, OkUnless d (samplePads G fuel l ms n s) := by
  induction n with
  | zero => exact fun s => .inl ⟨_, rfl⟩
  | succ n ih =>
    intro s
    unfold samplePads
    refine .bind (sampleUniform_okUnless h hne hl hl' s) fun a _ => ?_
    dsimp only
    exact .bind (ih _) fun a _ => .inl ⟨_, rfl⟩

theorem keyEntry_delivers (hD : Delivers G) (hG : Words G) (hk : GoodKey w l k S) (hne : k.ms ≠ []) (hl : 1 ≤ l)
    (hl' : l ≤ 15) (h0 : 0 < v) (h1 : v ≤ 256) (hv : ∀ m ∈ k.ms.head?, 2 * v ≤ m.N) (ht : t < 2 ^ w) {source pad : RPoly}
    {g : List ℕ} {A : Fin (2 ^ l) → ℤ} {z : ℤ} (hs : Comp l k.ms source S') (hp : Comp l k.ms pad A)
    (hz : RnsIntIs k.ms g z) (s : σ) : ∃ r, keyEntry G k v t source pad g s = .ok r := by
  have hg := hk.good
  have hlog : k.key.logN = l := hk.key.2.1
  unfold keyEntry
  obtain ⟨x, x1, x2, x3⟩ := repr_mulRns hg hs.2 hz
  obtain ⟨u, u1, u2, u3⟩ := repr_negate hg hp.2
  obtain ⟨⟨e, s1⟩, he⟩ := sampleErr_delivers hD hG hg hne hl hl' h0 h1 hv s
  obtain ⟨e1, E, e2, e3⟩ := sampleErr_ok G hG hg hv he
  obtain ⟨b, b1, b2, b3⟩ := repr_mulInt hg e2 ht
  obtain ⟨c, c1, c2, c3⟩ := repr_add hg b3 x3 (by rw [b2, e1, x2, hs.1])
  obtain ⟨f, f1, f2, f3⟩ := repr_fusedMulAdd hg c3 u3 hk.key.2 (by rw [c2, b2, e1]) (by rw [u2, hp.1]) hk.key.1
  rw [x1, Outcome.bind_ok, u1, Outcome.bind_ok, hlog, he, Outcome.bind_ok]
  dsimp only
  rw [b1, Outcome.bind_ok, c1, Outcome.bind_ok, f1, Outcome.bind_ok]
  exact ⟨_, rfl⟩

theorem keyEntries_delivers (hD : Delivers G) (hG : Words G) (hk : GoodKey w l k S) (hne : k.ms ≠ []) (hl : 1 ≤ l)
    (hl' : l ≤ 15) (h0 : 0 < v) (h1 : v ≤ 256) (hv : ∀ m ∈ k.ms.head?, 2 * v ≤ m.N) (ht : t < 2 ^ w) {source : RPoly}
    (hs : Comp l k.ms source S') : ∀ {gs : List (List ℕ)} {Gs : List ℤ} {pads : List RPoly} (s : σ),
    List.Forall₂ (RnsIntIs k.ms) gs Gs → (∀ a ∈ pads, ∃ A, Comp l k.ms a A) → gs.length ≤ pads.length →
    ∃ bs rest s', keyEntries G k v t source gs pads s = .ok (bs, rest, s') ∧ (∀ a ∈ rest, a ∈ pads) ∧
      rest.length + gs.length = pads.length := by
  intro gs
  induction gs with
  | nil =>
    intro Gs pads s _ _ _
    exact ⟨_, _, _, by unfold keyEntries; rfl, fun a h => h, by simp⟩
  | cons g gs ih =>
    intro Gs pads s hz hp hlen
    obtain ⟨z, Zs, hz1, hz2, rfl⟩ := List.forall₂_cons_left_iff.mp hz
    cases pads with
    | nil => simp at hlen
    | cons pad pads =>
      obtain ⟨A, hA⟩ := hp pad (by simp)
      obtain ⟨⟨b, s1⟩, e1⟩ := keyEntry_delivers hD hG hk hne hl hl' h0 h1 hv ht hs hA hz1 s
      obtain ⟨bs, rest, s', e2, e3, e4⟩ := ih (pads := pads) s1 hz2 (fun a ha => hp a (by simp [ha])) (by simpa using hlen)
      refine ⟨b :: bs, rest, s', ?_, fun a ha => by simp [e3 a ha], by simp; omega⟩
      unfold keyEntries
      rw [e1, Outcome.bind_ok]
      dsimp only
      rw [e2, Outcome.bind_ok]
      rfl

theorem relinBlocks_delivers (hD : Delivers G) (hG : Words G) (hk : GoodKey w l k S) (hne : k.ms ≠ []) (hl : 1 ≤ l)
    (hl' : l ≤ 15) (h0 : 0 < v) (h1 : v ≤ 256) (hv : ∀ m ∈ k.ms.head?, 2 * v ≤ m.N) (ht : t < 2 ^ w)
    {gs : List (List ℕ)} {Gs : List ℤ} (hgs : List.Forall₂ (RnsIntIs k.ms) gs Gs) : ∀ (cnt : ℕ) {secret : RPoly}
    {T : Fin (2 ^ l) → ℤ} {pads : List RPoly} (s : σ), Comp l k.ms secret T → (∀ a ∈ pads, ∃ A, Comp l k.ms a A) →
    cnt * gs.length ≤ pads.length → ∃ bs, relinBlocks G k v t gs cnt secret pads s = .ok bs := by
  intro cnt
  induction cnt with
  | zero => intro secret T pads s _ _ _; exact ⟨_, by unfold relinBlocks; rfl⟩
  | succ cnt ih =>
    intro secret T pads s hs hp hlen
    obtain ⟨x, x1, x2, x3⟩ := repr_mul hk.good hs.2 hk.key.2 hs.1 hk.key.1
    have hlen' : gs.length ≤ pads.length := le_trans (by rw [Nat.succ_mul]; omega) hlen
    obtain ⟨bs, rest, s', e2, e3, e4⟩ := keyEntries_delivers hD hG hk hne hl hl' h0 h1 hv ht (S' := negMul T S)
      (source := x) ⟨x2, x3⟩ s hgs hp hlen'
    obtain ⟨cs, hcs⟩ := ih (pads := rest) s' ⟨x2, x3⟩ (fun a ha => hp a (e3 a ha))
      (by rw [Nat.succ_mul] at hlen; omega)
    unfold relinBlocks
    rw [x1, Outcome.bind_ok, e2, Outcome.bind_ok]
    dsimp only
    rw [hcs, Outcome.bind_ok]
    exact ⟨_, rfl⟩

end Shell
