import Verif.Model.Pke
import Verif.Spec.Paserk

/-!
# Specification: what the parties to a seal compute

The recipient's public key as it enters the derivations, and the recipient's Diffie-Hellman secret
with an ephemeral public key. From operations/PKE.md, except that in k4 the secret scalar is reduced
modulo the order of the base point, which makes no difference for ephemeral keys without a
small-order component (C44).
-/

namespace Pasta.Spec

/-- The recipient's public key: k3 compressed, k4 as an X25519 key. -/
def sealPub (P : Prims) : {v : Ver} → Key P v .Public → Bytes
  | .V3, pk => (P.p384Compress pk.key).1
  | .V4, pk => (P.edToMontgomery pk.key).1

/-- The recipient's shared secret with an ephemeral public key; none if that is not a point (k3). -/
def unsealSecret (P : Prims) : {v : Ver} → Key P v .Secret → (epk : BytesN (pkeEpkLen v)) → Option Bytes
  | .V3, sk, epk => (P.p384Parse epk.1).map fun e => (P.p384Dh sk.key e).1
  | .V4, sk, epk =>
    some (P.montMul (decodeScalar25519 (P.edSecretHalf sk.key) % ed25519Order) epk).1

end Pasta.Spec
