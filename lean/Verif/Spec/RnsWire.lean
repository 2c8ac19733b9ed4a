import Verif.Spec.RnsBfvPolySession
/-!
# RNS ciphertexts and Galois keys that are sent (C86)

`start seed` is the state of the generator of pads after creation from `seed`.
-/

namespace Shell.Spec
open Rns
variable {σ τ : Type}

/-- The ciphertext that is received when `x` is serialized, sent, and deserialized with the moduli `ms`
(rns/rns_ciphertext.h:70-98). -/
def sendCt (ms : List Modulus) (x : RCt) : Outcome RCt := do
  let s ← x.serialize
  RCt.deserialize s ms

/-- The Galois key that is received when `key`, created from `seed`, is serialized, sent, and deserialized
(rns/rns_galois_key.h:119-138, rns/rns_galois_key.cc:204-236). -/
def sendGalois (Gp : Gen τ) (start : List ℕ → τ) (fuel : ℕ) (seed : List ℕ) (prng : PrngType) (g : RGadget)
    (ms : List Modulus) (key : RGalois) : Outcome RGalois := do
  let s ← key.serialize seed prng
  RGalois.deserialize Gp start fuel s g ms

/-- `r` is the Galois key for `lev` moduli and the power `p`, created with the error scale `z`, after it was sent;
`key` is the key before. -/
def SentGalois (G : Gen σ) (Gp : Gen τ) (start : List ℕ → τ) (fuel : ℕ) (C : SchemeChoice) (z : ℕ) (c : Rns.Ctx)
    (k : ℕ → RKey) (lev p : ℕ) (key r : RGalois) : Prop :=
  ∃ g prng seed s, C.Gadget c lev g ∧ RGalois.create Gp G fuel (k lev) p C.v g prng z (start seed) s = .ok key ∧
    sendGalois Gp start fuel seed prng g (c.qs.take lev) key = .ok r

/-- `v'` is what a server has: the same context and relinearization keys, and the ciphertexts and Galois keys of `v` as
received. -/
structure Received (G : Gen σ) (Gp : Gen τ) (start : List ℕ → τ) (fuel : ℕ) (C : SchemeChoice) (z : ℕ) (k : ℕ → RKey)
    (v v' : PEnv) : Prop where
  context : v'.c = v.c
  relin : v'.relin = v.relin
  x : ∀ i, sendCt v.c.qs (v.x i) = .ok (v'.x i)
  y : ∀ i, sendCt v.c.qs (v.y i) = .ok (v'.y i)
  galois : ∀ a ∈ C.galois, SentGalois G Gp start fuel C z v.c k a.1 a.2 (v.galois a.1 a.2) (v'.galois a.1 a.2)

/-- The Galois keys were created from seeds. -/
def Seeded (G : Gen σ) (Gp : Gen τ) (start : List ℕ → τ) (fuel : ℕ) (C : SchemeChoice) (z : ℕ) (k : ℕ → RKey)
    (v : PEnv) : Prop :=
  ∀ a ∈ C.galois, ∃ g prng seed s, C.Gadget v.c a.1 g ∧
    RGalois.create Gp G fuel (k a.1) a.2 C.v g prng z (start seed) s = .ok (v.galois a.1 a.2)

end Shell.Spec
