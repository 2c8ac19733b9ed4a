import Verif.Model.Transcription
import Verif.Lemmas.Core
import Mathlib.Data.Nat.Bitwise

namespace Shell.Transcription

/-- Bit `j` of a stream of `c`-bit chunks. -/
def sbit (c : ℕ) (l : List ℕ) (j : ℕ) : Bool := (l.getD (j / c) 0).testBit (j % c)

/-- Output invariant: exactly the first `c` bits of the stream have been written. -/
def Written (outb : ℕ) (bit : ℕ → Bool) (out : List ℕ) (c : ℕ) : Prop :=
  ∀ k i, (out.getD k 0).testBit i =
    (decide (i < outb) && decide (k * outb + i < c) && bit (k * outb + i))

theorem inner_spec (Win Wout outb rem len nb0 v c0 : ℕ) (bit : ℕ → Bool) (hob : 0 < outb)
    (hobW : outb ≤ Wout) (hnb0 : nb0 ≤ Win)
    (hrem : c0 + rem = len) (hnbrem : nb0 ≤ rem)
    (hbit : ∀ j < nb0, bit (c0 + j) = v.testBit j) (n : ℕ) (hlen : len ≤ n * outb) :
    ∀ nb st, nb ≤ nb0 → st.out.length = n →
      Written outb bit st.out (c0 + (nb0 - nb)) →
      st.ptr * outb + (st.size - st.needed) = c0 + (nb0 - nb) →
      st.needed ≤ st.size → st.size ≤ outb →
      (st.size = outb ∨ len ≤ c0 + (nb0 - nb) + st.needed) →
      ∃ st', inner Win Wout outb rem ((v <<< (Win - nb0)) % 2 ^ Win) nb st = .ok st' ∧
        st'.out.length = n ∧ Written outb bit st'.out (c0 + nb0) ∧
        st'.ptr * outb + (st'.size - st'.needed) = c0 + nb0 ∧
        st'.needed ≤ st'.size ∧ st'.size ≤ outb ∧
        (st'.size = outb ∨ len ≤ c0 + nb0 + st'.needed) := by
  intro nb
  induction nb using Nat.strong_induction_on with
  | _ nb ih =>
    intro st hnb hn hW hpos hns hso hfull
    rw [inner]
    by_cases h0 : nb = 0
    · rw [dif_pos h0]
      subst h0
      simp only [Nat.sub_zero] at *
      exact ⟨st, rfl, hn, hW, hpos, hns, hso, hfull⟩
    rw [dif_neg h0]
    -- the state after possibly moving to the next output element
    set st1 : OutState := if st.needed = 0 then
        { st with ptr := st.ptr + 1, size := min rem outb, needed := min rem outb } else st with hst1
    have k1 : st1.out = st.out := by rw [hst1]; split_ifs <;> rfl
    have k2 : st1.ptr * outb + (st1.size - st1.needed) = c0 + (nb0 - nb) := by
      rw [hst1]
      split_ifs with h
      · simp only
        rcases hfull with hf | hf
        · rw [← hpos, h, hf]; simp; ring
        · omega
      · exact hpos
    have k3 : st1.needed ≤ st1.size := by rw [hst1]; split_ifs <;> simp [hns]
    have k4 : st1.size ≤ outb := by rw [hst1]; split_ifs <;> simp [hso]
    have k5 : st1.size = outb ∨ len ≤ c0 + (nb0 - nb) + st1.needed := by
      rw [hst1]
      split_ifs with h
      · simp only
        rcases Nat.le_total outb rem with h' | h'
        · left; omega
        · right; omega
      · exact hfull
    have k6 : 0 < st1.needed := by
      rw [hst1]
      split_ifs with h
      · simp only; omega
      · omega
    clear_value st1
    simp only
    have hproc : min nb st1.needed ≠ 0 := by omega
    rw [dif_neg hproc]
    set proc := min nb st1.needed with hp
    have hpn : proc ≤ nb := by omega
    have hps : proc ≤ st1.needed := by omega
    -- the shifts are in range
    have e1 : shl Win ((v <<< (Win - nb0)) % 2 ^ Win) (nb - proc) =
        .ok ((((v <<< (Win - nb0)) % 2 ^ Win) <<< (nb - proc)) % 2 ^ Win) := by
      unfold shl; rw [if_pos (by omega)]
    rw [e1]
    simp only [Outcome.bind_ok]
    have e2 : ∀ y, shr Win y (Win - proc) = .ok (y >>> (Win - proc)) := by
      intro y; unfold shr; rw [if_pos (by omega)]
    rw [e2]
    simp only [Outcome.bind_ok]
    set M := ((((v <<< (Win - nb0)) % 2 ^ Win) <<< (nb - proc)) % 2 ^ Win) >>> (Win - proc) with hM
    have hMbit : ∀ j, M.testBit j = (decide (j < proc) && v.testBit (nb0 - nb + j)) := by
      intro j
      rw [hM, Nat.testBit_shiftRight, Nat.testBit_mod_two_pow, Nat.testBit_shiftLeft,
        Nat.testBit_mod_two_pow, Nat.testBit_shiftLeft]
      by_cases hj : j < proc
      · have t1 : Win - proc + j < Win := by omega
        have t2 : nb - proc ≤ Win - proc + j := by omega
        have t3 : Win - proc + j - (nb - proc) < Win := by omega
        have t4 : Win - nb0 ≤ Win - proc + j - (nb - proc) := by omega
        have t5 : Win - proc + j - (nb - proc) - (Win - nb0) = nb0 - nb + j := by omega
        simp [hj, t1, t2, t3, t4, t5]
      · have t1 : ¬ Win - proc + j < Win := by omega
        simp [hj, t1]
    have hMlt : M < 2 ^ proc := by
      apply Nat.lt_pow_two_of_testBit
      intro i hi
      rw [hMbit]
      have : ¬ i < proc := by omega
      simp [this]
    have hM2 : M % 2 ^ Wout = M := Nat.mod_eq_of_lt
      (lt_of_lt_of_le hMlt (Nat.pow_le_pow_right (by norm_num) (by omega)))
    rw [hM2]
    have e3 : shl Wout M (st1.size - st1.needed) = .ok (M <<< (st1.size - st1.needed)) := by
      unfold shl
      rw [if_pos (by omega), Nat.mod_eq_of_lt]
      rw [Nat.shiftLeft_eq]
      calc M * 2 ^ (st1.size - st1.needed) < 2 ^ proc * 2 ^ (st1.size - st1.needed) :=
            Nat.mul_lt_mul_of_pos_right hMlt (by positivity)
        _ = 2 ^ (proc + (st1.size - st1.needed)) := by rw [pow_add]
        _ ≤ 2 ^ Wout := Nat.pow_le_pow_right (by norm_num) (by omega)
    rw [e3]
    simp only [Outcome.bind_ok]
    have hptr : st1.ptr < n := by
      by_contra hc
      have : n * outb ≤ st1.ptr * outb := Nat.mul_le_mul_right _ (by omega)
      omega
    have e4 : orAt st1 (M <<< (st1.size - st1.needed)) =
        .ok (st1.out.set st1.ptr (st1.out.getD st1.ptr 0 ||| M <<< (st1.size - st1.needed))) := by
      unfold orAt; rw [if_pos (by rw [k1, hn]; exact hptr)]
    rw [e4]
    simp only [Outcome.bind_ok]
    have hres := ih (nb - proc) (by omega)
      { out := st1.out.set st1.ptr (st1.out.getD st1.ptr 0 ||| M <<< (st1.size - st1.needed)),
        ptr := st1.ptr, size := st1.size, needed := st1.needed - proc }
      (by omega) (by simp [k1, hn]) ?_ (by simp only; omega) (by simp only; omega) k4
      (by simp only; omega)
    · exact hres
    · intro k i
      simp only
      have hWk := hW k i
      rw [k1]
      rw [List.getD_eq_getElem?_getD, List.getElem?_set]
      by_cases hk : st1.ptr = k
      · subst hk
        rw [if_pos rfl, if_pos (by omega)]
        rw [Option.getD_some, Nat.testBit_or, hWk, Nat.testBit_shiftLeft, hMbit]
        set off := st1.size - st1.needed with hoff
        by_cases hi : i < outb
        · by_cases hlo : st1.ptr * outb + i < c0 + (nb0 - nb)
          · have a1 : ¬ off ≤ i := by omega
            have a2 : st1.ptr * outb + i < c0 + (nb0 - (nb - proc)) := by omega
            simp [hi, hlo, a1, a2]
          · have a1 : off ≤ i := by omega
            by_cases hhi : i - off < proc
            · have a2 : st1.ptr * outb + i < c0 + (nb0 - (nb - proc)) := by omega
              have a3 : st1.ptr * outb + i = c0 + (nb0 - nb + (i - off)) := by omega
              have a4 := hbit (nb0 - nb + (i - off)) (by omega)
              rw [← a3] at a4
              simp [hi, hlo, a1, a2, hhi, a4]
            · have a2 : ¬ st1.ptr * outb + i < c0 + (nb0 - (nb - proc)) := by omega
              simp [hlo, a2, hhi]
        · have a1 : ¬ i - off < proc ∨ ¬ off ≤ i := by omega
          rcases a1 with a1 | a1 <;> simp [hi, a1]
      · rw [if_neg hk, ← List.getD_eq_getElem?_getD, hWk]
        by_cases hi : i < outb
        · have : (k * outb + i < c0 + (nb0 - nb)) ↔ (k * outb + i < c0 + (nb0 - (nb - proc))) := by
            rcases Nat.lt_or_gt_of_ne hk with h | h
            · have : (st1.ptr + 1) * outb ≤ k * outb := Nat.mul_le_mul_right _ h
              have : (st1.ptr + 1) * outb = st1.ptr * outb + outb := by ring
              constructor <;> intro <;> omega
            · have : (k + 1) * outb ≤ st1.ptr * outb := Nat.mul_le_mul_right _ h
              have : (k + 1) * outb = k * outb + outb := by ring
              constructor <;> intro <;> omega
          simp [hi, this]
        · simp [hi]

theorem outer_spec (Win Wout inb outb len : ℕ) (bit : ℕ → Bool) (hib : 0 < inb) (hibW : inb ≤ Win)
    (hob : 0 < outb) (hobW : outb ≤ Wout) (n : ℕ) (hlen : len ≤ n * outb) :
    ∀ (vs : List ℕ) (rem c0 : ℕ) (st : OutState),
      c0 + rem = len → (vs ≠ [] → (vs.length - 1) * inb < rem) → rem ≤ vs.length * inb →
      (∀ k (hk : k < vs.length), ∀ j, j < inb → k * inb + j < rem →
        bit (c0 + (k * inb + j)) = vs[k].testBit j) →
      st.out.length = n → Written outb bit st.out c0 →
      st.ptr * outb + (st.size - st.needed) = c0 →
      st.needed ≤ st.size → st.size ≤ outb →
      (st.size = outb ∨ len ≤ c0 + st.needed) →
      ∃ st', outer Win Wout inb outb vs rem st = .ok st' ∧
        st'.out.length = n ∧ Written outb bit st'.out len := by
  intro vs
  induction vs with
  | nil =>
    intro rem c0 st hr _ hle _ hn hW _ _ _ _
    simp at hle
    refine ⟨st, rfl, hn, ?_⟩
    rw [← hr, hle]; exact hW
  | cons v vs ih =>
    intro rem c0 st hr hlow hle hbits hn hW hpos hns hso hfull
    have hlow' := hlow (by simp)
    simp only [List.length_cons, Nat.add_sub_cancel] at hlow' hle
    have hrem : 0 < rem := by omega
    simp only [outer]
    have e1 : shl Win v (Win - min inb rem) = .ok ((v <<< (Win - min inb rem)) % 2 ^ Win) := by
      unfold shl; rw [if_pos (by omega)]
    rw [e1]
    simp only [Outcome.bind_ok]
    obtain ⟨st1, s1, s2, s3, s4, s5, s6, s7⟩ := inner_spec Win Wout outb rem len (min inb rem) v c0
      bit hob hobW (by omega) hr (by omega)
      (by
        intro j hj
        have := hbits 0 (by simp) j (by omega) (by omega)
        simpa using this) n hlen (min inb rem) st le_rfl hn
      (by simpa using hW) (by simpa using hpos) hns hso (by simpa using hfull)
    rw [s1]
    simp only [Outcome.bind_ok]
    by_cases hlast : vs = []
    · subst hlast
      simp only [List.length_nil, zero_add, one_mul] at hle
      refine ⟨st1, rfl, s2, ?_⟩
      have : len = c0 + min inb rem := by omega
      rw [this]; exact s3
    · have hvl : 0 < vs.length := List.length_pos_iff.2 hlast
      have hinb : inb ≤ vs.length * inb := Nat.le_mul_of_pos_left _ hvl
      have hmin : min inb rem = inb := by omega
      rw [hmin] at s3 s4 s7
      apply ih (rem - inb) (c0 + inb) st1 (by omega) _ _ _ s2 s3 s4 s5 s6 s7
      · intro _
        have : vs.length * inb = (vs.length - 1) * inb + inb := by
          obtain ⟨m, hm⟩ : ∃ m, vs.length = m + 1 := ⟨vs.length - 1, by omega⟩
          rw [hm]; simp; ring
        omega
      · have : (vs.length + 1) * inb = vs.length * inb + inb := by ring
        omega
      · intro k hk j hj hlt
        have hk2 : (k + 1) * inb = k * inb + inb := by ring
        have := hbits (k + 1) (by simpa using hk) j hj (by omega)
        rw [show c0 + inb + (k * inb + j) = c0 + ((k + 1) * inb + j) by rw [hk2]; ring, this]
        rfl

/-- Ceiling division. -/
def cdiv (a b : ℕ) : ℕ := (a + b - 1) / b

theorem cdiv_bounds (a b : ℕ) (ha : 0 < a) (hb : 0 < b) :
    a ≤ cdiv a b * b ∧ (cdiv a b - 1) * b < a ∧ 0 < cdiv a b := by
  unfold cdiv
  have h1 := Nat.div_mul_le_self (a + b - 1) b
  have h2 := Nat.lt_div_mul_add (a := a + b - 1) hb
  have h3 : 0 < (a + b - 1) / b := Nat.div_pos (by omega) hb
  have h4 : ((a + b - 1) / b - 1) * b = (a + b - 1) / b * b - b := by
    rw [Nat.sub_mul, one_mul]
  have h5 : b ≤ (a + b - 1) / b * b := Nat.le_mul_of_pos_left _ h3
  omega

/-- Success of `TranscribeBits` on sane arguments. -/
theorem transcribe_ok (Win Wout : ℕ) (input : List ℕ) (len inb outb : ℕ) (hlen : 0 < len)
    (hib : 0 < inb) (hob : 0 < outb) (hibW : inb ≤ Win) (hobW : outb ≤ Wout)
    (hin : cdiv len inb ≤ input.length) (h31 : len + inb < 2 ^ 31) (h31' : len + outb < 2 ^ 31) :
    ∃ out, transcribeBits Win Wout input len inb outb = .ok out ∧
      out.length = cdiv len outb ∧ Written outb (sbit inb input) out len := by
  unfold transcribeBits
  rw [if_neg (by omega), if_neg (by omega), if_neg (by omega), if_neg (by omega)]
  have i1 : int32 ((len : ℤ) + inb) = .ok ((len : ℤ) + inb) := by
    unfold int32; rw [if_pos (by omega)]
  have i2 : int32 ((len : ℤ) + inb - 1) = .ok ((len : ℤ) + inb - 1) := by
    unfold int32; rw [if_pos (by omega)]
  have i3 : idiv ((len : ℤ) + inb - 1) inb = .ok (cdiv len inb : ℕ) := by
    unfold idiv cdiv; rw [if_neg (by omega)]
    rw [show (len : ℤ) + inb - 1 = ((len + inb - 1 : ℕ) : ℤ) by omega, ← Int.ofNat_tdiv]
  have i4 : int32 ((outb : ℤ) - 1) = .ok ((outb : ℤ) - 1) := by
    unfold int32; rw [if_pos (by omega)]
  have i5 : int32 ((len : ℤ) + (outb - 1)) = .ok ((len : ℤ) + (outb - 1)) := by
    unfold int32; rw [if_pos (by omega)]
  have i6 : idiv ((len : ℤ) + (outb - 1)) outb = .ok (cdiv len outb : ℕ) := by
    unfold idiv cdiv; rw [if_neg (by omega)]
    rw [show (len : ℤ) + (outb - 1) = ((len + outb - 1 : ℕ) : ℤ) by omega, ← Int.ofNat_tdiv]
  obtain ⟨c1, c2, c3⟩ := cdiv_bounds len inb hlen hib
  obtain ⟨d1, d2, d3⟩ := cdiv_bounds len outb hlen hob
  have hc64 : trunc 64 ((cdiv len inb : ℕ) : ℤ) = cdiv len inb := by
    apply trunc_eq _ _ _ rfl
    have : cdiv len inb ≤ len + inb - 1 := Nat.div_le_self _ _
    omega
  rw [i1]; simp only [Outcome.bind_ok]
  rw [i2]; simp only [Outcome.bind_ok]
  rw [i3]; simp only [Outcome.bind_ok]
  rw [hc64, if_neg (by omega), i4]; simp only [Outcome.bind_ok]
  rw [i5]; simp only [Outcome.bind_ok]
  rw [i6]; simp only [Outcome.bind_ok]
  rw [if_neg (by omega), if_neg (by omega), if_neg (by omega)]
  simp only [Int.toNat_natCast]
  obtain ⟨st', h1, h2, h3⟩ := outer_spec Win Wout inb outb len (sbit inb input) hib hibW hob hobW
    (cdiv len outb) d1 (input.take (cdiv len inb)) len 0
    { out := List.replicate (cdiv len outb) 0, ptr := 0, size := min len outb,
      needed := min len outb }
    (by omega)
    (by intro _; rw [List.length_take, min_eq_left hin]; exact c2)
    (by rw [List.length_take, min_eq_left hin]; exact c1)
    (by
      intro k hk j hj hlt
      rw [List.length_take, min_eq_left hin] at hk
      unfold sbit
      rw [zero_add, mul_comm k inb, Nat.mul_add_div hib, Nat.div_eq_of_lt hj, add_zero,
        Nat.mul_add_mod, Nat.mod_eq_of_lt hj]
      rw [List.getD_eq_getElem?_getD, List.getElem?_eq_getElem (by omega), List.getElem_take]
      rfl)
    (by simp)
    (by
      intro k i
      have : (List.replicate (cdiv len outb) 0).getD k 0 = 0 := by
        rw [List.getD_eq_getElem?_getD, List.getElem?_replicate]; split_ifs <;> rfl
      rw [this]; simp)
    (by simp) le_rfl (by simp only; omega) (by simp only; omega)
  rw [h1]
  exact ⟨st'.out, rfl, h2, h3⟩

end Shell.Transcription
