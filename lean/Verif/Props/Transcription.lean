import Verif.Lemmas.Transcription
import Verif.Lemmas.Montgomery
import Verif.Props.Bits
/-!
# Properties C09 and C10: bit transcription and serialisation of modular integers
-/

namespace Shell
open Transcription MParams

/-- Specification: bit `j` of the bit stream stored in a vector of `c`-bit integers, least
significant bit first. -/
def Spec.streamBit (c : ℕ) (l : List ℕ) (j : ℕ) : Bool := (l.getD (j / c) 0).testBit (j % c)

/-- Specification: `out` holds exactly the first `len` bits of the stream in `input`, re-chunked into
`outb`-bit integers and zero padded. -/
def Spec.Rechunked (inb outb len : ℕ) (input out : List ℕ) : Prop :=
  out.length = (len + outb - 1) / outb ∧ (∀ x ∈ out, x < 2 ^ outb) ∧
  (∀ j < len, Spec.streamBit outb out j = Spec.streamBit inb input j) ∧
  (∀ j, len ≤ j → Spec.streamBit outb out j = false)

theorem written_rechunked {inb outb len : ℕ} {input out : List ℕ} (hob : 0 < outb)
    (hl : out.length = cdiv len outb) (hW : Written outb (sbit inb input) out len) :
    Spec.Rechunked inb outb len input out := by
  have hb : ∀ j, Spec.streamBit outb out j = (decide (j < len) && sbit inb input j) := by
    intro j
    unfold Spec.streamBit
    rw [hW]
    have h1 : j % outb < outb := Nat.mod_lt _ hob
    have h2 : j / outb * outb + j % outb = j := Nat.div_add_mod' j outb
    rw [h2]; simp [h1]
  refine ⟨hl, ?_, ?_, ?_⟩
  · intro x hx
    obtain ⟨k, hk, rfl⟩ := List.getElem_of_mem hx
    apply Nat.lt_pow_two_of_testBit
    intro i hi
    have := hW k i
    rw [List.getD_eq_getElem?_getD, List.getElem?_eq_getElem hk] at this
    simp only [Option.getD_some] at this
    rw [this]
    have : ¬ i < outb := by omega
    simp [this]
  · intro j hj; rw [hb]; simp [hj]; rfl
  · intro j hj; rw [hb]
    have : ¬ j < len := by omega
    simp [this]

/-- C09, success: for positive chunk widths that fit the types, a positive bit length and an input
that holds enough bits, `TranscribeBits` succeeds (without undefined behaviour) and re-chunks the
stream.  Partial: the `int` computations must not overflow (`len + width < 2^31`) and the widths
must be positive, see `c09_ub_violations`. -/
theorem c09_transcribe_partial (Win Wout : ℕ) (input : List ℕ) (len inb outb : ℕ)
    (hlen : 0 < len) (hib : 0 < inb) (hob : 0 < outb) (hibW : inb ≤ Win) (hobW : outb ≤ Wout)
    (hin : len ≤ input.length * inb) (h31 : len + inb < 2 ^ 31) (h31' : len + outb < 2 ^ 31) :
    ∃ out, transcribeBits Win Wout input len inb outb = .ok out ∧
      Spec.Rechunked inb outb len input out := by
  have hc : cdiv len inb ≤ input.length := by
    have := cdiv_bounds len inb hlen hib
    by_contra h
    have : input.length * inb ≤ (cdiv len inb - 1) * inb := Nat.mul_le_mul_right _ (by omega)
    omega
  obtain ⟨out, h1, h2, h3⟩ := transcribe_ok Win Wout input len inb outb hlen hib hob hibW hobW hc
    h31 h31'
  exact ⟨out, h1, written_rechunked hob h2 h3⟩

example : transcribeBits 16 8 [0x1ABC, 0x0DEF] 26 13 8 = .ok [0xBC, 0xFA, 0xBD, 1] := by
  decide +kernel

/-- C09, errors: for positive widths the call fails exactly in the documented cases, always with
`INVALID_ARGUMENT`, and never has undefined behaviour. -/
theorem c09_errors (Win Wout : ℕ) (input : List ℕ) (len : ℤ) (inb outb : ℕ)
    (hib : 0 < inb) (hob : 0 < outb) (h31 : len + inb < 2 ^ 31) (h31' : len + outb < 2 ^ 31) :
    let bad := Win < inb ∨ Wout < outb ∨ len < 0 ∨ (len = 0 ∧ input ≠ []) ∨
      (0 < len ∧ input.length * inb < len)
    (bad → transcribeBits Win Wout input len inb outb = .err .invalidArgument) ∧
    (¬ bad → ∃ out, transcribeBits Win Wout input len inb outb = .ok out) := by
  intro bad
  constructor
  · intro hbad
    unfold transcribeBits
    by_cases c1 : (inb : ℤ) > Win
    · rw [if_pos c1]
    rw [if_neg c1]
    by_cases c2 : (outb : ℤ) > Wout
    · rw [if_pos c2]
    rw [if_neg c2]
    by_cases c3 : len < 0
    · rw [if_pos c3]
    rw [if_neg c3]
    by_cases c4 : len = 0
    · rw [if_pos c4]
      have : input ≠ [] := by
        rcases hbad with h | h | h | h | h
        · omega
        · omega
        · omega
        · exact h.2
        · omega
      rw [if_neg this]
    rw [if_neg c4]
    have hshort : (input.length * inb : ℤ) < len := by
      rcases hbad with h | h | h | h | h <;> omega
    obtain ⟨n, rfl⟩ : ∃ n : ℕ, len = n := ⟨len.toNat, by omega⟩
    have i1 : int32 ((n : ℤ) + inb) = .ok ((n : ℤ) + inb) := by
      unfold int32; rw [if_pos (by omega)]
    have i2 : int32 ((n : ℤ) + inb - 1) = .ok ((n : ℤ) + inb - 1) := by
      unfold int32; rw [if_pos (by omega)]
    have i3 : idiv ((n : ℤ) + inb - 1) inb = .ok (cdiv n inb : ℕ) := by
      unfold idiv cdiv; rw [if_neg (by omega)]
      rw [show (n : ℤ) + inb - 1 = ((n + inb - 1 : ℕ) : ℤ) by omega, ← Int.ofNat_tdiv]
    have hn : 0 < n := by omega
    obtain ⟨b1, b2, b3⟩ := cdiv_bounds n inb hn hib
    have hc64 : trunc 64 ((cdiv n inb : ℕ) : ℤ) = cdiv n inb := by
      apply trunc_eq _ _ _ rfl
      have : cdiv n inb ≤ n + inb - 1 := Nat.div_le_self _ _
      omega
    rw [i1]; simp only [Outcome.bind_ok]
    rw [i2]; simp only [Outcome.bind_ok]
    rw [i3]; simp only [Outcome.bind_ok]
    rw [hc64, if_pos]
    by_contra hge
    have : cdiv n inb * inb ≤ input.length * inb := Nat.mul_le_mul_right _ (by omega)
    have h' : input.length * inb < n := by exact_mod_cast hshort
    omega
  · intro hgood
    have g : ¬ Win < inb ∧ ¬ Wout < outb ∧ ¬ len < 0 ∧ ¬ (len = 0 ∧ input ≠ []) ∧
        ¬ (0 < len ∧ input.length * inb < len) := by
      simpa only [bad, not_or] using hgood
    obtain ⟨g1, g2, g3, g4, g5⟩ := g
    by_cases c4 : len = 0
    · refine ⟨[], ?_⟩
      have : input = [] := by by_contra h; exact g4 ⟨c4, h⟩
      unfold transcribeBits
      rw [if_neg (by omega), if_neg (by omega), if_neg (by omega), if_pos c4, if_pos this]
    · obtain ⟨n, rfl⟩ : ∃ n : ℕ, len = n := ⟨len.toNat, by omega⟩
      have hle : n ≤ input.length * inb := by
        by_contra h
        exact g5 ⟨by omega, by exact_mod_cast (by omega : input.length * inb < n)⟩
      obtain ⟨out, h1, _⟩ := c09_transcribe_partial Win Wout input n inb outb (by omega) hib hob
        (by omega) (by omega) hle (by omega) (by omega)
      exact ⟨out, h1⟩

theorem rechunk_unique {inb outb : ℕ} {v s t : List ℕ} (hib : 0 < inb)
    (hv : ∀ x ∈ v, x < 2 ^ inb)
    (h1 : Spec.Rechunked inb outb (v.length * inb) v s)
    (h2 : Spec.Rechunked outb inb (v.length * inb) s t) : t = v := by
  obtain ⟨_, _, a3, _⟩ := h1
  obtain ⟨b1, b2, b3, _⟩ := h2
  have hl : t.length = v.length := by
    rw [b1, mul_comm, Nat.add_sub_assoc (by omega), Nat.mul_add_div hib,
      Nat.div_eq_of_lt (by omega), add_zero]
  apply List.ext_getElem hl
  intro k hk hk'
  apply Nat.eq_of_testBit_eq
  intro i
  by_cases hi : i < inb
  · have hlt : k * inb + i < v.length * inb := by
      have : (k + 1) * inb ≤ v.length * inb := Nat.mul_le_mul_right _ hk'
      have e : (k + 1) * inb = k * inb + inb := by ring
      omega
    have e1 := b3 _ hlt
    rw [a3 _ hlt] at e1
    unfold Spec.streamBit at e1
    have d1 : (k * inb + i) / inb = k := by
      rw [mul_comm, Nat.mul_add_div hib, Nat.div_eq_of_lt hi, add_zero]
    have d2 : (k * inb + i) % inb = i := by
      rw [mul_comm, Nat.mul_add_mod, Nat.mod_eq_of_lt hi]
    rw [d1, d2, List.getD_eq_getElem?_getD, List.getD_eq_getElem?_getD,
      List.getElem?_eq_getElem hk, List.getElem?_eq_getElem hk'] at e1
    exact e1
  · have p1 : t[k] < 2 ^ i := lt_of_lt_of_le (b2 _ (List.getElem_mem hk))
      (Nat.pow_le_pow_right (by norm_num) (by omega))
    have p2 : v[k] < 2 ^ i := lt_of_lt_of_le (hv _ (List.getElem_mem hk'))
      (Nat.pow_le_pow_right (by norm_num) (by omega))
    rw [Nat.testBit_lt_two_pow p1, Nat.testBit_lt_two_pow p2]

/-- C09, there and back: transcribing all bits of a vector into other chunks and back is the
identity. -/
theorem c09_round_trip (Win Wout : ℕ) (v : List ℕ) (inb outb : ℕ) (hv : v ≠ [])
    (hib : 0 < inb) (hob : 0 < outb) (hibW : inb ≤ Win) (hobW : outb ≤ Wout)
    (hvb : ∀ x ∈ v, x < 2 ^ inb)
    (h31 : v.length * inb + inb < 2 ^ 31) (h31' : v.length * inb + outb < 2 ^ 31) :
    ∃ s, transcribeBits Win Wout v (v.length * inb : ℕ) inb outb = .ok s ∧
      (∀ x ∈ s, x < 2 ^ outb) ∧
      transcribeBits Wout Win s (v.length * inb : ℕ) outb inb = .ok v := by
  have hlen : 0 < v.length * inb := Nat.mul_pos (List.length_pos_iff.2 hv) hib
  obtain ⟨s, s1, s2⟩ := c09_transcribe_partial Win Wout v (v.length * inb) inb outb hlen hib hob
    hibW hobW le_rfl h31 h31'
  have hs : v.length * inb ≤ s.length * outb := by
    rw [s2.1]; exact (cdiv_bounds _ outb hlen hob).1
  obtain ⟨t, t1, t2⟩ := c09_transcribe_partial Wout Win s (v.length * inb) outb inb hlen hob hib
    hobW hibW hs h31' h31
  refine ⟨s, s1, s2.2.1, ?_⟩
  rw [t1, rechunk_unique hib hvb s2 t2]

/-- C09, the disagreement: arguments the checks let through have undefined behaviour: a zero input
or output width divides by zero, a negative width shifts by too much, and a bit length close to
`INT_MAX` overflows. -/
theorem c09_ub_violations :
    transcribeBits 8 8 [1] 1 0 8 = .ub .divByZero ∧
    transcribeBits 8 8 [1] 1 8 0 = .ub .divByZero ∧
    transcribeBits 8 8 [1] 1 (-1) 8 = .ub .badShift ∧
    transcribeBits 8 8 [1] (2 ^ 31 - 1) 8 8 = .ub .signedOverflow := by decide +kernel

/-! ## C10 -/

/-- Facts about the stored bit length of a created parameter set with at most 128-bit words. -/
theorem logModulus_facts {w N : ℕ} {p : MParams} (h : create w N = .ok p) (hw : w ≤ 128) :
    N < 2 ^ p.logModulus ∧ 0 < p.logModulus ∧ p.logModulus ≤ w ∧ p.logModulus ≤ 128 ∧
      2 ^ p.logModulus ≤ 2 * N := by
  have g := good_of_create h
  have hl : p.logModulus = Bits.bitLength N := by
    obtain ⟨_, _, rfl⟩ := (create_ok_iff _ _ _).1 h; rfl
  have h4 := g.lt
  have hN : N < 2 ^ 128 := by
    have : 2 ^ w ≤ 2 ^ 128 := Nat.pow_le_pow_right (by norm_num) hw
    omega
  obtain ⟨b1, b2⟩ := c12_bit_length N hN
  rw [← hl] at b1 b2
  have hle : p.logModulus ≤ w := b2 w (by omega)
  have hpos : 0 < p.logModulus := by
    by_contra hc
    have : p.logModulus = 0 := by omega
    rw [this] at b1; have := g.pos; omega
  refine ⟨b1, hpos, hle, by omega, ?_⟩
  by_contra hc
  have : N < 2 ^ (p.logModulus - 1) := by
    have e : 2 ^ p.logModulus = 2 * 2 ^ (p.logModulus - 1) := by
      rw [← pow_succ']; congr 1; omega
    omega
  have := b2 _ this
  omega

/-- C10, round trip: every non-empty vector of at most `2^15` stored words survives
serialisation and deserialisation, and so does every single word.  (`≤ N` covers the non-canonical
word `N` produced by `Negate(0)` as well.) -/
theorem c10_round_trip {w N : ℕ} {p : MParams} (h : create w N = .ok p) (hw : w ≤ 128)
    (hw8 : 8 ≤ w) :
    (∀ v : List ℕ, v ≠ [] → v.length ≤ 2 ^ 15 → (∀ x ∈ v, x ≤ N) →
      ∃ s, Mont.serializeVector p v = .ok s ∧ (∀ b ∈ s, b < 256) ∧
        s.length = (v.length * p.logModulus + 7) / 8 ∧
        Mont.deserializeVector p v.length s = .ok v) ∧
    (∀ a ≤ N, ∃ s, Mont.serialize p a = .ok s ∧ s.length = p.serializedSize ∧
      Mont.deserialize p s = .ok a) := by
  have g := good_of_create h
  obtain ⟨l1, l2, l3, l4, l5⟩ := logModulus_facts h hw
  constructor
  · intro v hv hlen hx
    have hmul : v.length * p.logModulus ≤ 2 ^ 15 * 128 := Nat.mul_le_mul hlen l4
    have hvb : ∀ x ∈ v, x < 2 ^ p.logModulus := fun x hxm => by
      have := hx x hxm; omega
    have hpos : 0 < v.length * p.logModulus := Nat.mul_pos (List.length_pos_iff.2 hv) l2
    obtain ⟨s, s1, s2, s3⟩ := c09_round_trip p.w 8 v p.logModulus 8 hv l2 (by norm_num)
      (by rw [g.hw]; exact l3) le_rfl hvb (by omega) (by omega)
    obtain ⟨s', t1, t2⟩ := c09_transcribe_partial p.w 8 v (v.length * p.logModulus) p.logModulus 8
      hpos l2 (by norm_num) (by rw [g.hw]; exact l3) le_rfl le_rfl (by omega) (by omega)
    have : s' = s := by
      have := t1.symm.trans s1; simpa using this
    subst this
    refine ⟨s', ?_, fun b hb => by simpa using s2 b hb, by simpa using t2.1, ?_⟩
    · unfold Mont.serializeVector
      rw [if_neg (by unfold Mont.kMaxNumCoeffs; omega), if_neg hv]
      exact s1
    · unfold Mont.deserializeVector
      rw [if_neg (by omega), if_neg (by unfold Mont.kMaxNumCoeffs; omega)]
      have e : ((p.logModulus : ℤ) * (v.length : ℤ)) = ((v.length * p.logModulus : ℕ) : ℤ) := by
        push_cast; ring
      rw [e]
      rw [show ((8 : ℕ) : ℤ) = 8 by rfl] at s3
      rw [s3]
      simp
  · intro a ha
    obtain ⟨s, s1, s2, s3⟩ := c09_round_trip p.w 8 [a] p.logModulus 8 (by simp) l2 (by norm_num)
      (by rw [g.hw]; exact l3) le_rfl (by intro x hx; simp at hx; omega) (by simp; omega)
      (by simp; omega)
    obtain ⟨s', t1, t2⟩ := c09_transcribe_partial p.w 8 [a] ([a].length * p.logModulus)
      p.logModulus 8 (by simpa using l2) l2 (by norm_num) (by rw [g.hw]; exact l3) le_rfl le_rfl
      (by simp; omega) (by simp; omega)
    have : s' = s := by
      have := t1.symm.trans s1; simpa using this
    subst this
    simp only [List.length_singleton, one_mul] at s1 s3 t2
    refine ⟨s', s1, by simpa [MParams.serializedSize] using t2.1, ?_⟩
    unfold Mont.deserialize
    rw [show ((8 : ℕ) : ℤ) = 8 by rfl] at s3
    rw [s3]
    rfl

/-- C10, rejection: too long or empty vectors are not serialised; negative or too large counts, and
strings that do not hold enough bits, are not deserialised; a zero count needs an empty string. -/
theorem c10_rejects {w N : ℕ} {p : MParams} (h : create w N = .ok p) (hw : w ≤ 128)
    (hw8 : 8 ≤ w) :
    (∀ v : List ℕ, (v.length > 2 ^ 15 ∨ v = []) →
      Mont.serializeVector p v = .err .invalidArgument) ∧
    (∀ (n : ℤ) (s : List ℕ), n < 0 ∨ n > 2 ^ 15 →
      Mont.deserializeVector p n s = .err .invalidArgument) ∧
    (∀ (n : ℕ) (s : List ℕ), n ≤ 2 ^ 15 → s.length * 8 < p.logModulus * n →
      Mont.deserializeVector p n s = .err .invalidArgument) ∧
    (∀ s : List ℕ, s ≠ [] → Mont.deserializeVector p 0 s = .err .invalidArgument) ∧
    (∀ s : List ℕ, s.length * 8 < p.logModulus → Mont.deserialize p s = .err .invalidArgument) := by
  have g := good_of_create h
  obtain ⟨l1, l2, l3, l4, l5⟩ := logModulus_facts h hw
  refine ⟨?_, ?_, ?_, ?_, ?_⟩
  · intro v hv
    unfold Mont.serializeVector Mont.kMaxNumCoeffs
    split_ifs with h1 h2
    · rfl
    · rfl
    · rcases hv with hv | hv
      · exact absurd hv h1
      · exact absurd hv h2
  · intro n s hn
    unfold Mont.deserializeVector Mont.kMaxNumCoeffs
    split_ifs with h1 h2
    · rfl
    · rfl
    · exfalso
      rcases hn with hn | hn
      · exact h1 hn
      · exact h2 (by push_cast; exact hn)
  · intro n s hn hs
    have hmul : p.logModulus * n ≤ 128 * 2 ^ 15 := Nat.mul_le_mul l4 hn
    unfold Mont.deserializeVector Mont.kMaxNumCoeffs
    rw [if_neg (by omega), if_neg (by push_cast; omega)]
    have := (c09_errors 8 p.w s ((p.logModulus * n : ℕ) : ℤ) 8 p.logModulus (by norm_num) l2
      (by omega) (by omega)).1 (by
        right; right; right; right
        exact ⟨by omega, by exact_mod_cast hs⟩)
    push_cast at this
    rw [this]; rfl
  · intro s hs
    unfold Mont.deserializeVector Mont.kMaxNumCoeffs
    rw [if_neg (by omega), if_neg (by norm_num)]
    have := (c09_errors 8 p.w s 0 8 p.logModulus (by norm_num) l2
      (by omega) (by omega)).1 (by
        right; right; right; left
        exact ⟨rfl, hs⟩)
    simp only [Nat.cast_ofNat] at this
    rw [mul_zero, this]; rfl
  · intro s hs
    unfold Mont.deserialize
    have := (c09_errors 8 p.w s (p.logModulus : ℤ) 8 p.logModulus (by norm_num) l2
      (by omega) (by omega)).1 (by
        right; right; right; right
        exact ⟨by omega, by exact_mod_cast hs⟩)
    simp only [Nat.cast_ofNat] at this
    rw [this]; rfl

/-- C10 (partial), range of deserialised words: they are below `2^log_modulus` (at most twice the
modulus), not necessarily below the modulus; see `c10_noncanonical`. -/
theorem c10_deserialized_range_partial {w N : ℕ} {p : MParams} (h : create w N = .ok p)
    (hw : w ≤ 128) (n : ℕ) (s v : List ℕ) (hv : Mont.deserializeVector p n s = .ok v) :
    v.length = n ∧ ∀ x ∈ v, x < 2 * N := by
  have g := good_of_create h
  obtain ⟨l1, l2, l3, l4, l5⟩ := logModulus_facts h hw
  unfold Mont.deserializeVector Mont.kMaxNumCoeffs at hv
  rw [if_neg (by omega)] at hv
  split_ifs at hv with hn
  push_cast at hn
  have hmul : p.logModulus * n ≤ 128 * 2 ^ 15 := Nat.mul_le_mul l4 (by omega)
  rw [Outcome.bind_eq_ok] at hv
  obtain ⟨t, ht, hv⟩ := hv
  simp only [Int.toNat_natCast] at hv
  split_ifs at hv with hlt
  simp only [Outcome.ok.injEq] at hv
  subst hv
  refine ⟨by simp; omega, fun x hx => ?_⟩
  have hxt : x ∈ t := List.mem_of_mem_take hx
  by_cases hn0 : n = 0
  · subst hn0; simp at hx
  have hpos : 0 < p.logModulus * n := Nat.mul_pos l2 (by omega)
  by_cases hshort : s.length * 8 < p.logModulus * n
  · have := (c09_errors 8 p.w s ((p.logModulus * n : ℕ) : ℤ) 8 p.logModulus (by norm_num) l2
      (by omega) (by omega)).1 (by
        right; right; right; right
        exact ⟨by omega, by exact_mod_cast hshort⟩)
    push_cast at this
    rw [this] at ht; simp at ht
  · obtain ⟨t', t1, t2⟩ := c09_transcribe_partial 8 p.w s (p.logModulus * n) 8 p.logModulus hpos
      (by norm_num) l2 le_rfl (by rw [g.hw]; exact l3) (by omega) (by omega) (by omega)
    push_cast at t1
    have : t' = t := by have := t1.symm.trans ht; simpa using this
    subst this
    have := t2.2.1 x hxt
    omega

/-- C10, the disagreement: a byte string of the right length can deserialise to a word that is not a
residue. -/
theorem c10_noncanonical : ∃ w N p s v, create w N = .ok p ∧
    Mont.deserializeVector p 1 s = .ok [v] ∧ N ≤ v :=
  ⟨16, 12289, make 16 12289, [255, 255], 16383, by decide +kernel⟩

example : ∃ s, Mont.serializeVector (make 16 12289) [12288, 1, 12289] = .ok s ∧
    (∀ b ∈ s, b < 256) ∧ s.length = 6 ∧
    Mont.deserializeVector (make 16 12289) 3 s = .ok [12288, 1, 12289] :=
  (c10_round_trip (N := 12289) (w := 16) (by decide +kernel) (by norm_num) (by norm_num)).1
    [12288, 1, 12289] (by simp) (by simp) (by simp)

end Shell
