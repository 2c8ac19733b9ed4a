import Verif.Lemmas.Prng
import Mathlib.Data.Nat.Digits.Defs
/-!
# C36: the generators deliver the seed's key stream in order
-/

namespace Shell
open Shell.Prng Shell.Spec

/-! ### Seed sizes -/

/-- C36: a seed of the wrong size is rejected, whatever the generator. -/
theorem c36_create_rejects (K : Kind) (key : List ℕ) (h : key.length ≠ K.seedLen) :
    create K key = .err .invalidArgument := by
  unfold create; rw [if_pos h]

/-- C36: the HKDF generators reject every seed that does not have 64 bytes, the ChaCha20 generators
every seed that does not have 32 bytes. -/
theorem c36_seed_sizes (compute : List ℕ → List ℕ → ℕ → Outcome (List ℕ))
    (stream : List ℕ → List ℕ → ℕ → List ℕ) (key : List ℕ) :
    (key.length ≠ 64 → create (hkdf compute) key = .err .invalidArgument) ∧
    (key.length ≠ 32 → create (chacha stream) key = .err .invalidArgument) ∧
    (key.length = 32 → ∃ s, create (chacha stream) key = .ok s) :=
  ⟨c36_create_rejects (hkdf compute) key, c36_create_rejects (chacha stream) key, fun h => by
    unfold create resalt chacha incInt
    rw [if_neg (by simpa using h)]
    exact ⟨_, rfl⟩⟩

/-! ### The stream -/

/-- C36: after `Create`, any sequence of `Rand8` and `Rand64` calls returns consecutive pieces of the
key stream `block 0 ++ block 1 ++ …` of the seed, across refills: call `j` returns the byte at its
offset (`Rand8`) or the little-endian number of the 8 bytes at its offset (`Rand64`), where offsets
add up the widths of the earlier calls.

Partial: the number of bytes handed out is bounded by `(2^31 - 1) * 8160`; see
`c36_refill_overflow`. -/
theorem c36_stream_partial (K : Kind) (hK : K.bufSize = 8160) (key : List ℕ)
    (hkey : key.length = K.seedLen) (block : ℕ → List ℕ) (M : ℕ) (hM : 0 < M) (hM31 : M < 2 ^ 31)
    (src : Source K key block M) (ops : List Op) (hops : (ops.map width).sum ≤ M * 8160) :
    ∃ s vs s', create K key = .ok s ∧ calls K ops s = .ok (vs, s') ∧ vs.length = ops.length ∧
      ∀ j op, ops[j]? = some op → vs[j]? = some (valueAt block 8160 op (offset ops j)) := by
  obtain ⟨s, h1, h2⟩ := create_at src hM hM31 hkey
  obtain ⟨s', h3, -⟩ := calls_at src hM31 (by omega) (by omega) ops h2 (by rw [hK]; omega)
  refine ⟨s, _, s', h1, h3, valuesFrom_length _ _ _, ?_⟩
  intro j op hj
  rw [valuesFrom_getElem?, hj, hK]
  simp

/-- C36 for `SingleThreadChaChaPrng` / `ChaChaPrng`: the blocks are the key streams of the nonces
`"salt" ++ counter` for counters 0, 1, 2, …. -/
theorem c36_chacha_partial (stream : List ℕ → List ℕ → ℕ → List ℕ)
    (hstream : ∀ key nonce n, (stream key nonce n).length = n ∧ ∀ b ∈ stream key nonce n, b < 256)
    (key : List ℕ) (hkey : key.length = 32) (ops : List Op)
    (hops : (ops.map width).sum ≤ (2 ^ 31 - 1) * 8160) :
    ∃ s vs s', create (chacha stream) key = .ok s ∧ calls (chacha stream) ops s = .ok (vs, s') ∧
      vs.length = ops.length ∧
      ∀ j op, ops[j]? = some op → vs[j]? = some
        (valueAt (fun c => stream key (chachaNonce c) 8160) 8160 op (offset ops j)) :=
  c36_stream_partial (chacha stream) rfl key hkey _ (2 ^ 31 - 1) (by norm_num) (by norm_num)
    ⟨fun _ _ => rfl, fun _ _ => (hstream _ _ _).1, fun _ _ => (hstream _ _ _).2⟩ ops hops

/-- C36 for `SingleThreadHkdfPrng` / `HkdfPrng`: the blocks are the HKDF outputs for the salts
`"salt0"`, `"salt1"`, …. -/
theorem c36_hkdf_partial (compute : List ℕ → List ℕ → ℕ → Outcome (List ℕ))
    (out : List ℕ → List ℕ → ℕ → List ℕ)
    (hout : ∀ key salt, compute key salt 8160 = .ok (out key salt 8160) ∧
      (out key salt 8160).length = 8160 ∧ ∀ b ∈ out key salt 8160, b < 256)
    (key : List ℕ) (hkey : key.length = 64) (ops : List Op)
    (hops : (ops.map width).sum ≤ (2 ^ 31 - 1) * 8160) :
    ∃ s vs s', create (hkdf compute) key = .ok s ∧ calls (hkdf compute) ops s = .ok (vs, s') ∧
      vs.length = ops.length ∧
      ∀ j op, ops[j]? = some op → vs[j]? = some
        (valueAt (fun c => out key (hkdfSalt c) 8160) 8160 op (offset ops j)) :=
  c36_stream_partial (hkdf compute) rfl key hkey _ (2 ^ 31 - 1) (by norm_num) (by norm_num)
    ⟨fun _ _ => (hout _ _).1, fun _ _ => (hout _ _).2.1, fun _ _ => (hout _ _).2.2⟩ ops hops

/-- C36: how a stream is cut into calls does not matter: eight `Rand8` calls and one `Rand64` call
made at the same point of the stream see the same bytes, and leave the generator handing out the same
bytes afterwards (here: any common continuation `rest`). -/
theorem c36_interleaving (K : Kind) (hK : K.bufSize = 8160) (key : List ℕ)
    (hkey : key.length = K.seedLen) (block : ℕ → List ℕ) (M : ℕ) (hM : 0 < M) (hM31 : M < 2 ^ 31)
    (src : Source K key block M) (pre rest : List Op)
    (hops : (pre.map width).sum + 8 + (rest.map width).sum ≤ M * 8160) :
    ∃ s ws bs tail t t' v, create K key = .ok s ∧
      calls K (pre ++ [.rand64] ++ rest) s = .ok (ws ++ [v] ++ tail, t) ∧
      calls K (pre ++ List.replicate 8 .rand8 ++ rest) s = .ok (ws ++ bs ++ tail, t') ∧
      ws.length = pre.length ∧ bs.length = 8 ∧ v = Nat.ofDigits 256 bs := by
  obtain ⟨s, h1, h2⟩ := create_at src hM hM31 hkey
  obtain ⟨s1, h3, -⟩ := calls_at src hM31 (by omega) (by omega) (pre ++ [.rand64] ++ rest) h2
    (by simp only [List.map_append, List.sum_append, hK]; simp [width]; omega)
  obtain ⟨s2, h4, -⟩ := calls_at src hM31 (by omega) (by omega)
    (pre ++ List.replicate 8 .rand8 ++ rest) h2
    (by simp only [List.map_append, List.sum_append, hK]; simp [width]; omega)
  rw [valuesFrom_append, valuesFrom_append] at h3 h4
  have e : ((pre ++ List.replicate 8 Op.rand8).map width).sum =
      ((pre ++ [Op.rand64]).map width).sum := by simp [width]
  rw [e] at h4
  refine ⟨s, _, _, _, s1, s2, _, h1, h3, h4, valuesFrom_length _ _ _, ?_, ?_⟩
  · rw [valuesFrom_length]; simp
  · simp only [valueAt, valuesFrom, List.replicate, width, Finset.sum_range_succ, Finset.sum_range_zero,
      Nat.ofDigits_cons, Nat.ofDigits_nil, Nat.cast_id]
    ring_nf

/-! ### Limits and errors -/

/-- C36: an error of the primitive when a refill is due is returned by the call that needs the
refill. -/
theorem c36_refill_error (K : Kind) (hK : K.bufSize = 8160) (key : List ℕ)
    (hkey : key.length = K.seedLen) (block : ℕ → List ℕ) (M : ℕ) (hM : 0 < M) (hM31 : M < 2 ^ 31)
    (src : Source K key block M) (e : Status) (herr : K.fill key M = .err e) (ops : List Op)
    (hops : (ops.map width).sum = M * 8160) (op : Op) :
    ∃ s, create K key = .ok s ∧ calls K (ops ++ [op]) s = .err e := by
  obtain ⟨s, h1, h2⟩ := create_at src hM hM31 hkey
  obtain ⟨s', h3, hk, c, hc, hsalt, hbuf, hpos, hp⟩ :=
    calls_at src hM31 (by omega) (by omega) ops h2 (by rw [hK]; omega)
  refine ⟨s, h1, ?_⟩
  rw [hK] at hp hpos
  have hc' : c + 1 = M := by omega
  have hr : refill K s' = .err e := by
    unfold refill resalt
    rw [if_pos (by rw [hbuf, src.size c hc, hK]; omega), hk, hsalt, hc', herr]; rfl
  have hcall : call K op s' = .err e := by
    cases op with
    | rand8 => show rand8 K s' = _; unfold rand8; rw [hr]; rfl
    | rand64 => show rand64 K s' = _; simp only [rand64, loop, loopFrom, rand8, hr]; rfl
  rw [calls_append, h3]
  simp only [Outcome.bind_ok, calls, hcall, Outcome.bind_err]

/-- The full C36 ("any number of calls", and the header comment "there is no bound on the number of
pseudorandom bytes that can be created", prng/hkdf_prng.h:49-50) fails: `salt_counter` is an `int`
that counts refills, so the call that needs block number `2^31 - 1` overflows it. -/
theorem c36_refill_overflow (K : Kind) (hK : K.bufSize = 8160) (key : List ℕ)
    (hkey : key.length = K.seedLen) (block : ℕ → List ℕ) (src : Source K key block (2 ^ 31))
    (ops : List Op) (hops : (ops.map width).sum = (2 ^ 31 - 1) * 8160) (op : Op) :
    ∃ s, create K key = .ok s ∧ calls K (ops ++ [op]) s = .ub .signedOverflow := by
  have src' : Source K key block (2 ^ 31 - 1) :=
    ⟨fun c hc => src.fill c (by omega), fun c hc => src.size c (by omega),
      fun c hc => src.byte c (by omega)⟩
  obtain ⟨s, h1, h2⟩ := create_at src' (by norm_num) (by norm_num) hkey
  obtain ⟨s', h3, hk, c, hc, hsalt, hbuf, hpos, hp⟩ :=
    calls_at src' (by norm_num) (by omega) (by omega) ops h2 (by rw [hK]; omega)
  refine ⟨s, h1, ?_⟩
  rw [hK] at hp hpos
  have hc' : c + 1 = 2 ^ 31 - 1 := by omega
  have hr : refill K s' = .ub .signedOverflow := by
    unfold refill resalt
    rw [if_pos (by rw [hbuf, src'.size c hc, hK]; omega), hk, hsalt, hc',
      src.fill _ (by norm_num), Outcome.bind_ok]
    rfl
  have hcall : call K op s' = .ub .signedOverflow := by
    cases op with
    | rand8 => show rand8 K s' = _; unfold rand8; rw [hr]; rfl
    | rand64 => show rand64 K s' = _; simp only [rand64, loop, loopFrom, rand8, hr]; rfl
  rw [calls_append, h3]
  simp only [Outcome.bind_ok, calls, hcall, Outcome.bind_ub]

/-! ### Salts do not repeat -/

theorem nonceBytes_inj (i a b : ℕ) (ha : a < 256 ^ i) (hb : b < 256 ^ i)
    (h : nonceBytes i a = nonceBytes i b) : a = b := by
  induction i generalizing a b with
  | zero => simp only [pow_zero] at ha hb; omega
  | succ i ih =>
    simp only [nonceBytes, List.cons.injEq] at h
    have hm : ∀ x : ℕ, x &&& 0xFF = x % 256 := fun x => Nat.and_two_pow_sub_one_eq_mod x 8
    have hs : ∀ x : ℕ, x >>> 8 = x / 256 := fun x => Nat.shiftRight_eq_div_pow x 8
    rw [hm, hm, hs, hs] at h
    have h2 := ih (a / 256) (b / 256)
      (Nat.div_lt_of_lt_mul (by rw [← pow_succ']; exact ha))
      (Nat.div_lt_of_lt_mul (by rw [← pow_succ']; exact hb)) h.2
    omega

/-- C36: the ChaCha20 nonces have 12 bytes and the nonces of different refills differ, so no part of
the key stream is handed out twice by construction. -/
theorem c36_chacha_nonce (a b : ℕ) (ha : a < 2 ^ 31) (hb : b < 2 ^ 31) :
    (chachaNonce a).length = 12 ∧ (chachaNonce a = chachaNonce b → a = b) := by
  refine ⟨rfl, fun h => ?_⟩
  unfold chachaNonce at h
  exact nonceBytes_inj 8 a b (by omega) (by omega) (List.append_cancel_left h)

/-- C36: the HKDF salts of different refills differ. -/
theorem c36_hkdf_salt (a b : ℕ) (h : hkdfSalt a = hkdfSalt b) : a = b := by
  unfold hkdfSalt decimal at h
  have h1 := List.append_cancel_left h
  have hinj : Function.Injective Char.toNat := fun x y hxy => by
    apply Char.ext; exact UInt32.toNat_inj.mp hxy
  have h2 := (List.map_injective_iff.mpr hinj) h1
  rw [← Nat.ofDigitChars_ten_toDigits (n := a), h2, Nat.ofDigitChars_ten_toDigits]

/-! ### The hypotheses can be met -/

/-- A toy key stream: byte `i` is `nonce[4] + i` modulo 256. -/
def toyStream (_key nonce : List ℕ) (n : ℕ) : List ℕ :=
  (List.range n).map fun i => (nonce.getD 4 0 + i) % 256

theorem toyStream_ok (key nonce : List ℕ) (n : ℕ) :
    (toyStream key nonce n).length = n ∧ ∀ b ∈ toyStream key nonce n, b < 256 := by
  refine ⟨by simp [toyStream], fun b hb => ?_⟩
  obtain ⟨i, -, rfl⟩ := List.mem_map.mp hb
  exact Nat.mod_lt _ (by norm_num)

/-- The toy generator: `n` calls of `Rand8` (any `n` up to a million, so crossing many refills) and
then one `Rand64`, which returns the eight bytes at offset `n`. -/
theorem toy_stream (n : ℕ) (hn : n ≤ 1000000) :
    ∃ s vs s', create (chacha toyStream) (List.replicate 32 7) = .ok s ∧
    calls (chacha toyStream) (List.replicate n .rand8 ++ [.rand64]) s = .ok (vs, s') ∧
    vs.length = n + 1 ∧ vs[n]? = some
      (valueAt (fun c => toyStream (List.replicate 32 7) (chachaNonce c) 8160) 8160 .rand64 n) := by
  obtain ⟨s, vs, s', h1, h2, h3, h4⟩ := c36_chacha_partial toyStream toyStream_ok
    (List.replicate 32 7) (by simp) (List.replicate n .rand8 ++ [.rand64])
    (by simp [width]; omega)
  refine ⟨s, vs, s', h1, h2, by simpa using h3, ?_⟩
  have := h4 n .rand64 (by simp)
  have e : offset (List.replicate n Op.rand8 ++ [.rand64]) n = n := by
    unfold offset
    rw [List.take_append_of_le_length (by simp)]
    simp [width]
  rwa [e] at this

example : ∃ s vs s', create (chacha toyStream) (List.replicate 32 7) = .ok s ∧
    calls (chacha toyStream) (List.replicate 9000 .rand8 ++ [.rand64]) s = .ok (vs, s') ∧
    vs.length = 9001 ∧ vs[9000]? = some
      (valueAt (fun c => toyStream (List.replicate 32 7) (chachaNonce c) 8160) 8160 .rand64 9000) :=
  toy_stream 9000 (by norm_num)

/-- The hypotheses of `c36_refill_overflow` can be met: `(2^31 - 1) * 8160` calls of `Rand8`. -/
example : ∃ s, create (chacha toyStream) (List.replicate 32 7) = .ok s ∧
    calls (chacha toyStream) (List.replicate ((2 ^ 31 - 1) * 8160) .rand8 ++ [.rand8]) s
      = .ub .signedOverflow :=
  c36_refill_overflow (chacha toyStream) rfl (List.replicate 32 7) (by simp [chacha]) 
    (fun c => toyStream (List.replicate 32 7) (chachaNonce c) 8160)
    ⟨fun _ _ => rfl, fun _ _ => (toyStream_ok _ _ _).1, fun _ _ => (toyStream_ok _ _ _).2⟩
    _ (by generalize (2 ^ 31 - 1) * 8160 = m; simp [width]) .rand8

end Shell
