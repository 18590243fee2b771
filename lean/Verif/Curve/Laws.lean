import Verif.Curve.Laws25519
import Verif.Curve.Laws384

/-!
# The real algorithms satisfy the laws

The hypothesis `Prims.Laws` of the round-trip theorems is not an assumption about the algorithms:
it is a theorem about `Real.prims`, the implementation that also reproduces the test vectors.
-/

namespace Pasta.Real

open Pasta.Curve

theorem laws : prims.Laws where
  edBytes_of_parse := E25519.edBytes_of_parse
  edParse_bytes := E25519.edParse_bytes
  edVerify_sign := E25519.edVerify_sign
  x25519_comm := E25519.x25519_comm
  montMulBase_mod := E25519.montMulBase_mod
  montMul_mod := E25519.montMul_mod
  montMul_mod_base := E25519.montMul_mod_base
  p384Parse_compress := E384.parse_compress
  p384Compress_tag := E384.compress_tag
  p384Parse_form s k := E384.parse_form s k
  p384SigOk_sign sk d s h := by
    obtain ⟨b, hb, rfl⟩ := Option.map_eq_some_iff.1 h
    exact E384.sigOk_sign sk d.1 b hb
  p384Verify_sign sk d s h := by
    obtain ⟨b, hb, rfl⟩ := Option.map_eq_some_iff.1 h
    show P384.verify (xy (p384Public sk)) d.1 (fit 96 b).1 = true
    rw [E25519.fit_of_length (E384.sign_length hb)]
    exact E384.verify_sign sk d.1 b hb
  p384Dh_comm a c := by
    show fit 48 (P384.dh a.1.1 (xy (p384Public c))) = fit 48 (P384.dh c.1.1 (xy (p384Public a)))
    rw [E384.dh_comm]

end Pasta.Real
