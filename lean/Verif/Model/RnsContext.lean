import Verif.Model.Rns
/-!
# `shell_encryption/rns/rns_context.{h,cc}` and `rns/crt_interpolation.h`

`ImportInt` of a `MontgomeryInt` never fails, so the error branches of the `RLWE_ASSIGN_OR_RETURN` around it
are absent.
-/

namespace Shell.Rns

/-- `RnsContext` (rns/rns_context.h:247-312).  `modT` is `modulus_t_`; `none` if its pointers are null, and
its NTT parameters are empty if they are null (`CreateForBfv`). -/
structure Ctx where
  logN : ℤ
  qs : List Modulus
  ps : List Modulus
  t : ℕ
  modT : Option Modulus
  primeQs : List (List ℕ)
  primeQInvs : List (List ℕ)
  primeQInvModPs : List (List ℕ)
  leveledQModPs : List (List ℕ)
  primePHatInvs : List ℕ
  primePHatModQs : List (List ℕ)
  pModQs : List ℕ
  pInvModQs : List ℕ
  qModT : ℕ
  pModT : ℕ
  tModQs : List ℕ
  tInvModQs : List ℕ
  tInvModPs : List ℕ
  qsModT : List ℕ
  qInvsModT : List ℕ
  qlInvsModT : List ℕ
  deriving Repr

/-- Montgomery and NTT parameters of one modulus (rns/rns_context.cc:38-53). -/
def makeModulus (w : ℕ) (logN : ℤ) (q : ℕ) : Outcome Modulus := do
  let p ← MParams.create w q
  let n ← Ntt.initNtt p logN
  return ⟨p, n⟩

/-- The product over all `k` except `i` of `f m_k` modulo `p`: the loops
`for (k...) if (k != i) x.MulInPlace(f(m_k))` (rns/rns_context.cc:282-290, 300-310, 341-349). -/
def prodOthers (p : MParams) (f : Modulus → ℕ) (i : ℕ) (ms : List Modulus) : ℕ :=
  ms.zipIdx.foldl (fun acc mk => if mk.2 ≠ i then Mont.mul p acc (f mk.1) else acc) (Mont.importOne p)

/-- The product of `f m_k` modulo `p` (rns/rns_context.cc:324-333). -/
def prodAll (p : MParams) (f : Modulus → ℕ) (ms : List Modulus) : ℕ :=
  ms.foldl (fun acc m => Mont.mul p acc (f m)) (Mont.importOne p)

/-- `prime_qs_` (rns/rns_context.cc:153-176). -/
def primeQs (qs : List Modulus) : List (List ℕ) :=
  qs.mapIdx fun i mi => qs.mapIdx fun j mj =>
    if j = i then Mont.importZero mj.p else Mont.importInt mj.p mi.N

/-- `prime_q_invs_` (rns/rns_context.cc:153-176): 1 is a placeholder on the diagonal. -/
def primeQInvs (qs : List Modulus) : List (List ℕ) :=
  qs.mapIdx fun i mi => qs.mapIdx fun j mj =>
    if j = i then Mont.importOne mj.p else Mont.multiplicativeInverse mj.p (Mont.importInt mj.p mi.N)

/-- `prime_q_inv_mod_ps_` (rns/rns_context.cc:179-191). -/
def primeQInvModPs (qs ps : List Modulus) : List (List ℕ) :=
  ps.map fun pi => qs.map fun qj => Mont.multiplicativeInverse pi.p (Mont.importInt pi.p qj.N)

/-- The loop over the levels that computes `leveled_q_mod_ps_` (rns/rns_context.cc:200-209). -/
def leveledLoop (ps : List Modulus) : List ℕ → List Modulus → List (List ℕ)
  | _, [] => []
  | acc, q :: qs =>
    let acc' := List.zipWith (fun (pj : Modulus) a => Mont.mul pj.p a (Mont.importInt pj.p q.N)) ps acc
    acc' :: leveledLoop ps acc' qs

/-- `leveled_q_mod_ps_` (rns/rns_context.cc:194-209). -/
def leveledQModPs (qs ps : List Modulus) : List (List ℕ) :=
  leveledLoop ps (ps.map fun pj => Mont.importOne pj.p) qs

/-- `prime_p_hat_invs_` (rns/rns_context.cc:297-313). -/
def primePHatInvs (ps : List Modulus) : List ℕ :=
  ps.mapIdx fun j pj =>
    prodOthers pj.p (fun pk => Mont.multiplicativeInverse pj.p (Mont.importInt pj.p pk.N)) j ps

/-- `p_mod_qs_` (rns/rns_context.cc:316-334). -/
def pModQs (qs ps : List Modulus) : List ℕ :=
  qs.map fun qi => prodAll qi.p (fun pj => Mont.importInt qi.p pj.N) ps

/-- `p_inv_mod_qs_` (rns/rns_context.cc:316-334). -/
def pInvModQs (qs ps : List Modulus) : List ℕ :=
  qs.map fun qi => prodAll qi.p (fun pj => Mont.multiplicativeInverse qi.p (Mont.importInt qi.p pj.N)) ps

/-- `prime_p_hat_mod_qs_` (rns/rns_context.cc:337-354). -/
def primePHatModQs (qs ps : List Modulus) : List (List ℕ) :=
  ps.mapIdx fun j _ => qs.map fun qi => prodOthers qi.p (fun pk => Mont.importInt qi.p pk.N) j ps

/-- `Q mod t` and `P mod t` over the big integer type, twice as wide as a word
(rns/rns_context.cc:358-377). -/
def prodModT (w t : ℕ) (ms : List Modulus) : ℕ :=
  ms.foldl (fun acc m => (acc * m.N) % 2 ^ (2 * w) % t) 1 % 2 ^ w

/-- `Create` (rns/rns_context.cc:23-74). -/
def createCtx (w : ℕ) (logN : ℤ) (qs ps : List ℕ) (t : ℕ) : Outcome Ctx :=
  if logN ≤ 0 then .err .invalidArgument
  else if t = 0 then .err .invalidArgument
  else do
    let ms ← qs.mapM (makeModulus w logN)
    let aux ← ps.mapM (makeModulus w logN)
    return {
      logN := logN, qs := ms, ps := aux, t := t, modT := none
      primeQs := primeQs ms
      primeQInvs := primeQInvs ms
      primeQInvModPs := primeQInvModPs ms aux
      leveledQModPs := leveledQModPs ms aux
      primePHatInvs := primePHatInvs aux
      primePHatModQs := primePHatModQs ms aux
      pModQs := pModQs ms aux
      pInvModQs := pInvModQs ms aux
      qModT := prodModT w t ms
      pModT := prodModT w t aux
      tModQs := ms.map fun m => Mont.importInt m.p t
      tInvModQs := ms.map fun m => Mont.multiplicativeInverse m.p (Mont.importInt m.p t)
      tInvModPs := aux.map fun m => Mont.multiplicativeInverse m.p (Mont.importInt m.p t)
      qsModT := [], qInvsModT := [], qlInvsModT := [] }

/-- `GeneratePlaintextModulusConstantsForFiniteFieldEncoding` (rns/rns_context.cc:403-416). -/
def finiteFieldConstants (w : ℕ) (c : Ctx) : Outcome Ctx := do
  let m ← makeModulus w c.logN c.t
  return { c with modT := some m }

/-- The loop of `GeneratePlaintextModulusConstantsForBfv` (rns/rns_context.cc:426-439): the lists of
`(q_i mod t, q_i^-1 mod t, Q_i^-1 mod t)`. -/
def bfvLoop (mt : MParams) (t : ℕ) : ℕ → List Modulus → Outcome (List (ℕ × ℕ × ℕ))
  | _, [] => .ok []
  | acc, q :: qs => do
    let a := Mont.importInt mt (q.N % t)
    let b ← Mont.multiplicativeInverseFast mt a
    let acc' := Mont.mul mt acc b
    let r ← bfvLoop mt t acc' qs
    return (a, b, acc') :: r

/-- `GeneratePlaintextModulusConstantsForBfv` (rns/rns_context.cc:419-440); null parameters are
dereferenced. -/
def bfvConstants (c : Ctx) : Outcome Ctx :=
  match c.modT with
  | none => .ub .nullDeref
  | some mt => do
    let r ← bfvLoop mt.p c.t (Mont.importOne mt.p) c.qs
    return { c with qsModT := r.map (·.1), qInvsModT := r.map (·.2.1), qlInvsModT := r.map (·.2.2) }

/-- `CreateForBgvFiniteFieldEncoding` (rns/rns_context.cc:78-97). -/
def createForBgvFiniteField (w : ℕ) (logN : ℤ) (qs ps : List ℕ) (t : ℕ) : Outcome Ctx :=
  if t % 2 = 0 then .err .invalidArgument
  else do
    let c ← createCtx w logN qs ps t
    finiteFieldConstants w c

/-- The empty NTT parameters of a `PrimeModulus` with a null pointer for them (rns/rns_context.cc:100-119). -/
def noNtt : Ntt.NttParams := ⟨0, 0, [], [], [], [], []⟩

/-- `CreateForBfv` (rns/rns_context.cc:100-119). -/
def createForBfv (w : ℕ) (logN : ℤ) (qs ps : List ℕ) (t : ℕ) : Outcome Ctx := do
  let c ← createCtx w logN qs ps t
  let p ← MParams.create w t
  bfvConstants { c with modT := some ⟨p, noNtt⟩ }

/-- `CreateForBfvFiniteFieldEncoding` (rns/rns_context.cc:123-146). -/
def createForBfvFiniteField (w : ℕ) (logN : ℤ) (qs ps : List ℕ) (t : ℕ) : Outcome Ctx :=
  if t % 2 = 0 then .err .invalidArgument
  else do
    let c ← createCtx w logN qs ps t
    let c ← finiteFieldConstants w c
    bfvConstants c

/-- The common loops of `MainPrimeModulusComplements` and `MainPrimeModulusCrtFactors`
(rns/rns_context.cc:220-236, 247-261): for each `i` the product of `table[j].Component(i)`, `j != i`. -/
def leveledProducts (qs : List Modulus) (table : List (List ℕ)) (level : ℤ) : Outcome (List ℕ) :=
  if level < 0 ∨ level ≥ qs.length then .err .invalidArgument
  else (List.range (level.toNat + 1)).mapM fun i => do
    let m ← rd qs i
    loop (level.toNat + 1) (fun j acc =>
      if j ≠ i then do
        let c ← entry table i j
        return Mont.mul m.p acc c
      else .ok acc) (Mont.importOne m.p)

/-- `MainPrimeModulusComplements` (rns/rns_context.cc:213-236). -/
def Ctx.complements (c : Ctx) (level : ℤ) : Outcome (List ℕ) := leveledProducts c.qs c.primeQs level

/-- `MainPrimeModulusCrtFactors` (rns/rns_context.cc:238-261). -/
def Ctx.crtFactors (c : Ctx) (level : ℤ) : Outcome (List ℕ) := leveledProducts c.qs c.primeQInvs level

/-- `MainPrimeModulusComplementResidues` (rns/rns_context.cc:263-293). -/
def Ctx.complementResidues (c : Ctx) (level : ℤ) : Outcome (List (List ℕ)) :=
  if level < 0 ∨ level ≥ c.qs.length then .err .invalidArgument
  else .ok ((List.range (level.toNat + 1)).map fun i => c.ps.map fun pj =>
    prodOthers pj.p (fun qk => Mont.importInt pj.p qk.N) i (c.qs.take (level.toNat + 1)))

/-- `MainLeveledModulusAuxResidues` (rns/rns_context.h:150-157). -/
def Ctx.leveledAuxResidues (c : Ctx) (level : ℤ) : Outcome (List ℕ) :=
  if level < 0 ∨ level ≥ c.qs.length then .err .invalidArgument
  else rd c.leveledQModPs level.toNat

/-! ### `crt_interpolation.h` -/

/-- `RnsModulusComplements` (rns/crt_interpolation.h:45-59) with `W`-bit big integers. -/
def modulusComplements (W : ℕ) (ms : List Modulus) : List ℕ :=
  ms.mapIdx fun i _ => ms.zipIdx.foldl (fun acc mj =>
    if mj.2 ≠ i then (acc * (mj.1.N % 2 ^ W)) % 2 ^ W else acc) (1 % 2 ^ W)

/-- The composite modulus (rns/crt_interpolation.h:91-94). -/
def compositeModulus (W : ℕ) (ms : List Modulus) : ℕ :=
  ms.foldl (fun acc m => (acc * (m.N % 2 ^ W)) % 2 ^ W) (1 % 2 ^ W)

/-- The loop over `i` for the coefficient `j` (rns/crt_interpolation.h:99-113; the code has `i` in the
outer loop). -/
def interpolateAt (W q j : ℕ) : List Modulus → List (List ℕ) → List ℕ → List ℕ → ℕ → Outcome ℕ
  | m :: ms, v :: vs, h :: hats, hi :: hatInvs, acc => do
    let a ← rd v j
    if q = 0 then .ub .divByZero
    else
      let f := (Mont.exportInt m.p hi % 2 ^ W * h) % 2 ^ W % q
      let f := (f * (Mont.exportInt m.p a % 2 ^ W)) % 2 ^ W % q
      interpolateAt W q j ms vs hats hatInvs (((acc + f) % 2 ^ W) % q)
  | _, _, _, _, acc => .ok acc

/-- `CrtInterpolation` (rns/crt_interpolation.h:68-116). -/
def crtInterpolation (W : ℕ) (vs : List (List ℕ)) (ms : List Modulus) (hats hatInvs : List ℕ) :
    Outcome (List ℕ) :=
  match vs with
  | [] => .err .invalidArgument
  | v :: _ =>
    if ms.length ≠ vs.length then .err .invalidArgument
    else if hats.length ≠ vs.length then .err .invalidArgument
    else if hatInvs.length ≠ vs.length then .err .invalidArgument
    else (List.range v.length).mapM fun j =>
      interpolateAt W (compositeModulus W ms) j ms vs hats hatInvs 0

end Shell.Rns
