import Verif.Props.Leakage
import Verif.Props.Pbkw

/-! # C77: the work of opening something is linear in its size, except what a password costs -/

namespace Pasta

namespace C77

open Spec (paserkText pwType)

/-- The work of a step, counted in bytes: those a primitive reads and writes, those compared,
decrypted or decoded. The work of a password hash is not counted in bytes. -/
def Event.work : Event → Nat
  | .prim _ out key msg => out + key + msg
  | .lengths .. => 1
  | .position _ => 1
  | .branch _ => 1
  | .stream n => n
  | .decode n => n
  | .cost .. => 0

/-- The work of a run. -/
def work (t : List Event) : Nat := (t.map Event.work).sum

variable {P : Prims} {v : Ver}

theorem work_append (a b : List Event) : work (a ++ b) = work a + work b := by
  simp [work]

theorem work_ct (n : Nat) : work (ctTrace n n) = n + 2 := by
  unfold ctTrace work
  rw [if_neg (by simp)]
  have : ∀ m, (((List.range m).map Event.position).map Event.work).sum = m := by
    intro m
    rw [List.map_map]
    have : (List.range m).map (Event.work ∘ Event.position) = List.replicate m 1 := by
      rw [List.eq_replicate_iff]
      refine ⟨by simp, fun b hb => ?_⟩
      obtain ⟨y, _, rfl⟩ := List.mem_map.1 hb
      rfl
    rw [this]
    simp
  simp only [List.map_cons, List.sum_cons, this]
  show 1 + (1 + n) = _
  omega

/-- Decrypting, or refusing, a token: every byte of payload, footer and assertion is looked at at
most three times, plus a constant. -/
theorem decrypt_work {F E M : Type} [Payload E] [MessageDecoding E M] (t : SecuredToken v .Local F E)
    (key : Key P v .Local) (i : Bytes) :
    work (t.decryptWithAssertionsT M P key i).trace ≤
      3 * t.payload.length + t.encodedFooter.length + i.length + (Payload.suffix E).length + 500 := by
  rcases C55.decrypt_steps (M := M) t key i with ⟨_, h, _⟩ | ⟨h0, ne, h, _⟩
  · rw [h]; simp [work]
  · rw [h]
    unfold decryptPrefix
    rw [work_append, work_append, work_ct]
    cases ne <;> cases v <;>
      simp [work, Event.work, keyIvPair, authKeySize, tagSize, Ver.pasetoHeader, asc] at h0 ⊢ <;> omega

/-- Verifying, or refusing, a signed token: every byte at most twice, plus a constant. -/
theorem verify_work {F E M : Type} [Payload E] [MessageDecoding E M] (t : SecuredToken v .Public F E)
    (key : Key P v .Public) (i : Bytes) :
    work (t.verifyWithAssertionsT M P key i).trace ≤
      2 * t.payload.length + t.encodedFooter.length + i.length + (Payload.suffix E).length + 500 := by
  rcases C55.verify_steps (M := M) t key i with ⟨_, h, _⟩ | ⟨h0, _, h, _⟩ | ⟨h0, ok, h, _⟩
  · rw [h]; simp [work]
  · rw [h]
    cases v <;> simp [work, Event.work, C55.verifyCalls] <;> omega
  · rw [h]
    cases ok <;> cases v <;> simp [work, Event.work, C55.verifyCalls] <;> omega

/-- Unwrapping, or refusing, a key wrapped with a key. -/
theorem pie_work {k : WKind} (w : PieWrappedKey v k) (wk : Key P v .Local) :
    work (w.unwrapKeyT P wk).trace ≤ 1000 := by
  obtain ⟨ne, h, _⟩ := C55.pie_steps w wk
  rw [h, work_append, work_append, work_ct]
  cases ne <;> cases v <;> cases k <;> decide

/-- Unsealing, or refusing, a sealed key. -/
theorem unseal_work (w : SealedKey v) (sk : Key P v .Secret) :
    work (w.unsealKeyT P sk).trace ≤ 1000 := by
  cases v
  · rcases C55.unseal_steps_v3 w sk with ⟨_, h, _⟩ | ⟨_, ne, h, _⟩
    · rw [h]; decide
    · rw [h]; cases ne <;> decide
  · obtain ⟨ne, h, _⟩ := C55.unseal_steps_v4 w sk
    rw [h]; cases ne <;> decide

/-- Unwrapping, or refusing, a key wrapped with a password: one password hash, with the parameters
that `settings` reports, and a constant for the rest. -/
theorem pw_work {k : WKind} (w : PwWrappedKey v k) (pw : Bytes) :
    work (w.unwrapKeyT P pw).trace ≤ pw.length + 1000 ∧
    ((w.unwrapKeyT P pw).res ≠ .panic →
      (w.unwrapKeyT P pw).trace.filter (fun e => e matches .cost ..) = [kdfCost w.settings]) ∧
    ((w.unwrapKeyT P pw).res = .panic → (w.unwrapKeyT P pw).trace = []) := by
  rcases C55.pw_steps (P := P) w pw with ⟨_, h, hr⟩ | ⟨hk, ne, h, _⟩
  · rw [h]
    exact ⟨by simp [work], fun h => absurd hr h, fun _ => rfl⟩
  · have hr : (w.unwrapKeyT P pw).res ≠ .panic := by
      rw [C55.pw_unwrap_same, PwWrappedKey.unwrapKey_eq, if_pos hk]
      split
      · rcases Key.fromBytes_cases (P := P) (applyKeystreamN (pwCodeStream P w.state pw w.salt.1
          w.nonce) w.edk) with ⟨key, h⟩ | h <;> rw [h] <;> simp
      · simp
    refine ⟨?_, fun _ => ?_, fun h => absurd h hr⟩
    · rw [h, work_append, work_append, work_ct]
      cases ne <;> cases v <;> cases k <;>
        simp [work, Event.work, kdfCost, pwSaltLen, pwKeyHashLen, pwTagLen, pwStateLen, ivLen, keyLen,
          Ver.paserkHeader, WKind.pwHeader, WKind.kind, asc] <;> omega
    · have hc : ∀ n, (ctTrace n n).filter (fun e => e matches .cost ..) = [] := by
        intro n
        simp [ctTrace, List.filter_map, Function.comp_def]
      rw [h, List.filter_append, List.filter_append, hc]
      cases ne <;> cases v <;> rfl

/-- Who writes the text chooses these parameters: for all of them there is a text, always of the same
length, and its password hash is computed before anything is authenticated. -/
theorem pw_text_chooses {k : WKind} (st : KdfState v) (hv : C37.Valid st) :
    ∃ s w, PwWrappedKey.parse v k s = .ok w ∧
      s.length = (Spec.paserkHeader v (pwType k.kind)).length + (4 * pwTotalLen v k + 2) / 3 ∧
      ∀ pw : Bytes, pw.length < 2 ^ 32 → kdfCost st ∈ (w.unwrapKeyT P pw).trace := by
  let w : PwWrappedKey v k := ⟨BytesN.fill _ 0, st, BytesN.fill _ 0, BytesN.fill _ 0, BytesN.fill _ 0⟩
  obtain ⟨s, _, h⟩ := C40.parse_display w
  refine ⟨s, w, h, C40.text_length s w h, fun pw hp => ?_⟩
  rcases C55.pw_steps (P := P) w pw with ⟨hk, _⟩ | ⟨_, ne, h, _⟩
  · exact absurd ((C37.kdfOk_iff st pw).2 ⟨hv, fun _ => hp⟩) hk
  · rw [h]
    simp [w]

/-- The most that can be asked for: `2 ^ 32 - 1` rounds, or as many passes over 4 GiB. -/
example : C37.Valid (v := .V3) ⟨0xffffffff⟩ ∧ C37.Valid (v := .V4) ⟨0xffffffff, 0xffffffff, 1⟩ ∧
    kdfCost (v := .V3) ⟨0xffffffff⟩ = .cost 0 (2 ^ 32 - 1) 1 ∧
    kdfCost (v := .V4) ⟨0xffffffff, 0xffffffff, 1⟩ = .cost (2 ^ 22 - 1) (2 ^ 32 - 1) 1 := by
  refine ⟨?_, ?_, rfl, rfl⟩ <;> simp [C37.Valid]

end C77

end Pasta
