import Verif.Lemmas.HybridGame
import Verif.Lemmas.RandomTags

/-!
# What the game uses of the tags of sealed keys

For C102. Hiding and opening do not use tags of messages that begin like a sealed key; so tags with one ephemeral
key are met only where the MAC is asked for. Then another one comes out right only by chance.
-/

namespace Pasta.Hybrid

open Spec (sealTagged)

variable {P : Prims} {v : Ver} {r L : Nat} {K : Finset (BytesN 32)}

/-- The beginning of a sealed key. -/
def sealHead (v : Ver) : Bytes := (Spec.sealHeader v).take 6

theorem sealTagged_head (epk edk : Bytes) : (sealTagged v epk edk).take 6 = sealHead v := by
  cases v <;> rfl

theorem preAuth_head (v : Ver) (h n c f i : Bytes) : (localPreAuth v h n c f i).take 6 ≠ sealHead v := by
  intro e
  have h0 := congrArg List.head? e
  have h1 : ((localPreAuth v h n c f i).take 6).head? = some 5 := rfl
  rw [h1] at h0
  cases v <;> exact absurd h0 (by decide)

theorem pieTagged_head (v : Ver) (k : WKind) (n c : Bytes) :
    (Spec.pieTagged v k.kind n c).take 6 ≠ sealHead v := by
  have h : ∀ k : WKind, (Spec.paserkHeader v (Spec.pieType k.kind)).take 6 ≠ sealHead v ∧
      6 ≤ (Spec.paserkHeader v (Spec.pieType k.kind)).length := by
    intro k
    cases v <;> cases k <;> decide
  unfold Spec.pieTagged
  rw [List.append_assoc, List.take_append_of_le_length (h k).2]
  exact (h k).1

/-- The primitives of the game, the tags last. -/
theorem pr_tags (P : Prims) (c : CipherOf v L) (f : Tags v) (D : Derivation v) :
    C101.pr P K c f D = ((P.withDerived K v D).withCiphers (c.ciphers P)).withTags v f := by
  unfold C101.pr
  rw [C96.tags_derived]
  cases v <;> rfl

theorem look_off (Q : Prims) {f f' : Tags v} (h : ∀ k m, m.take 6 ≠ sealHead v → f' (k, m) = f (k, m))
    (a : Opening v) (key : BytesN 32) : a.run (Q.withTags v f') key = a.run (Q.withTags v f) key := by
  cases a with
  | decrypt M F E iP iM iF text look i =>
    simp only [decrypt_run]
    congr 1
    funext t
    congr 1
    by_cases hs : t.payload.length < 32 + tagSize v
    · rw [decrypt_short _ _ _ hs, decrypt_short _ _ _ hs]
    · obtain ⟨n, c, g, hsp, hn, hg⟩ := payload_split v t.payload (by omega)
      rw [decrypt_split t _ i n c g hsp hn hg, decrypt_split t _ i n c g hsp hn hg]
      dsimp only
      rw [C81.localAuthKey_tags, C81.localAuthKey_tags, C81.codeStream_tags, C81.codeStream_tags,
        C81.localMac_tags _ _ _ rfl, C81.localMac_tags _ _ _ rfl, h _ _ (preAuth_head _ _ _ _ _ _)]
  | unwrap k text =>
    simp only [unwrap_run]
    congr 1
    funext w
    rw [PieWrappedKey.unwrapKey_eq, PieWrappedKey.unwrapKey_eq]
    unfold Spec.pieTag
    dsimp only
    rw [C81.pieAuthKey_tags, C81.pieAuthKey_tags, C81.pieCodeStream_tags, C81.pieCodeStream_tags,
      C81.mac_tags _ _ _ (C81.pieTagged_tag _ _ _ _), C81.mac_tags _ _ _ (C81.pieTagged_tag _ _ _ _),
      h _ _ (pieTagged_head _ _ _ _)]
    have two : ∀ (Q : Prims) (b : BytesN (keyLen v k.kind)),
        (Key.fromBytes Q v k.kind b >>= fun key => (.ok key.toBytes.1 : Res Bytes)) =
        (Key.fromBytes Q v k.kind b >>= fun key => (.ok key.toBytes : Res (BytesN _))) >>= fun b => .ok b.1 := by
      intro Q b
      cases Key.fromBytes Q v k.kind b <;> rfl
    split
    · rw [two, two, C81.fromBytes_tags, C81.fromBytes_tags]
    · rfl

theorem answer_off (P : Prims) (c : CipherOf v L) {f f' : Tags v} (D : Derivation v)
    (h : ∀ k m, m.take 6 ≠ sealHead v → f' (k, m) = f (k, m)) (a : Opening v) (key : BytesN 32)
    (issued : List Item) : a.answer (C101.pr P K c f' D) key issued = a.answer (C101.pr P K c f D) key issued := by
  unfold Opening.answer
  rw [pr_tags, pr_tags, look_off _ h]

theorem hide_off (P : Prims) (hK : ∀ x, x ∈ K) (c : CipherOf v L) {f f' : Tags v} (D : Derivation v)
    (h : ∀ k m, m.take 6 ≠ sealHead v → f' (k, m) = f (k, m)) {a : Hiding v} (ha : a.Comparable P L) (s : Side)
    (key b : BytesN 32) (rest : Rng) :
    a.run (C101.pr P K c f' D) ⟨key⟩ s (b.1 ++ rest) = a.run (C101.pr P K c f D) ⟨key⟩ s (b.1 ++ rest) := by
  cases a with
  | token M F E iP iM iF encoding message footer i =>
    obtain ⟨⟨m, hm, hl, hL, -⟩, fo, hfo⟩ := ha
    have hr := fun f : Tags v =>
      Hidden.token_run (K := K) ((P.withTags v f).withCiphers (c.ciphers (P.withTags v f)))
        iP iM iF (encoding s) (message s) footer i (hm s) hfo D (hK key) b rest
    simp only [localMac_withCiphers, C100.stream_tags] at hr
    have hr := fun f : Tags v => (hr f).trans (by rw [C81.localMac_tags _ _ _ rfl])
    rw [Hiding.run_at, Hiding.run_at, C101.pr, C101.pr, withDerived_withCiphers, withDerived_withCiphers]
    refine (hr f').trans (Eq.trans ?_ (hr f).symm)
    rw [h _ _ (preAuth_head _ _ _ _ _ _)]
  | wrap k hidden =>
    have hb : ∃ kb, ∀ f : Tags v,
        ∃ k1, Key.fromBytes ((P.withTags v f).withCiphers (c.ciphers (P.withTags v f))) v k.kind
          (hidden s) = .ok k1 ∧ k1.toBytes = kb := by
      obtain ⟨k0, h0⟩ := ha.1 s
      refine ⟨k0.toBytes, fun f => ?_⟩
      have e1 := fromBytes_ciphers (P := P.withTags v f) (c.ciphers (P.withTags v f)) k (hidden s)
      rw [C81.fromBytes_tags, h0, Res.ok_bind] at e1
      obtain ⟨k1, h1, h2⟩ := Res.bind_eq_ok.1 e1
      exact ⟨k1, h1, Res.ok.inj h2⟩
    obtain ⟨kb, hb⟩ := hb
    choose k1 h1 h2 using hb
    have hr := fun f : Tags v =>
      Hidden.wrap_run (K := K) ((P.withTags v f).withCiphers (c.ciphers (P.withTags v f))) (h1 f) D (hK key) b rest
    simp only [mac_withCiphers, h2, C100.stream_tags, C81.mac_tags _ _ _ (C81.pieTagged_tag _ _ _ _)] at hr
    rw [Hiding.run_at, Hiding.run_at, C101.pr, C101.pr, withDerived_withCiphers, withDerived_withCiphers]
    refine (hr f').trans (Eq.trans ?_ (hr f).symm)
    rw [h _ _ (pieTagged_head _ _ _ _)]

end Pasta.Hybrid

namespace Pasta.C102

open Spec (sealTagged)
open Hybrid (hide_hash answer_hash hide_local sealHead sealTagged_head hide_off answer_off)

variable {P : Prims} {v : Ver} {r L : Nat} {K : Finset (BytesN 32)}

/-- Few keys of the MAC are asked for, and few texts are to be unsealed; tags with this ephemeral key under other
keys do not matter. -/
theorem few_macs {Γ : Type} (P : Prims) (hK : ∀ x, x ∈ K) (c : CipherOf v L) (f : Tags v) (g : SealHash v)
    (epk : Bytes) (U : Bytes → Option (Res Bytes)) (s : Side) (ask : List (Got v L) → Option (Wish v r))
    (hask : ∀ answers i a, ask answers = some (.attempt (.hide i a)) → a.Comparable P L)
    (D : Derivation v) (keys : Fin r → BytesN 32) (G : SealAsk v → List Γ) (hG0 : ∀ y, G (.hash y) = [])
    (hG1 : ∀ y, (G (.unseal y)).length ≤ 1) (k : Nat) :
    ∀ (o u q m : Nat) (ns : List (BytesN 32)) (issued : List Item) (answers : List (Got v L)),
      ∃ xs : List Bytes, xs.length ≤ m ∧
        ((hybrid (hp P K c f D g) keys D c f g U s ask k ns.length o u q m
          (ns.map Subtype.val).flatten issued answers).2.flatMap G).length ≤ m ∧
        ∀ f' : Tags v, (∀ x y, (∀ e, y = sealTagged v epk e → x ∈ xs) → f' (x, y) = f (x, y)) →
        hybrid (hp P K c f' D g) keys D c f' g U s ask k ns.length o u q m (ns.map Subtype.val).flatten
            issued answers =
          hybrid (hp P K c f D g) keys D c f g U s ask k ns.length o u q m (ns.map Subtype.val).flatten
            issued answers := by
  have off : ∀ (xs : List Bytes) (f' : Tags v),
      (∀ x y, (∀ e, y = sealTagged v epk e → x ∈ xs) → f' (x, y) = f (x, y)) →
      ∀ x y, y.take 6 ≠ sealHead v → f' (x, y) = f (x, y) := fun xs f' h x y hy =>
    h x y fun e he => absurd (by rw [he, sealTagged_head]) hy
  induction k with
  | zero => intros; exact ⟨[], Nat.zero_le _, Nat.zero_le _, fun _ _ => rfl⟩
  | succ k ih =>
    intro o u q m ns issued answers
    have stop : ∀ x : Res (List (Got v L)),
        ∃ xs : List Bytes, xs.length ≤ m ∧ ((x, ([] : List (SealAsk v))).2.flatMap G).length ≤ m ∧
          ∀ f' : Tags v, (∀ x y, (∀ e, y = sealTagged v epk e → x ∈ xs) → f' (x, y) = f (x, y)) →
          (x, ([] : List (SealAsk v))) = (x, ([] : List (SealAsk v))) :=
      fun _ => ⟨[], Nat.zero_le _, Nat.zero_le _, fun _ _ => rfl⟩
    simp only [hybrid]
    cases ha : ask answers with
    | none => exact stop _
    | some a =>
      cases a with
      | attempt a => cases a with
        | hide i a =>
          cases ns with
          | nil => exact stop _
          | cons b ns =>
            obtain ⟨x, text, hx⟩ := hide_local P hK c f D (hask _ _ _ ha) s (keys (i s)) b
            obtain ⟨xs, h1, h2, h3⟩ := ih o u q m ns (a.item text :: issued)
              (answers ++ [.found (.told (some (.ok text)))])
            have e0 := (hide_hash g a (keys (i s)) s _).trans (hx c rfl (ns.map Subtype.val).flatten)
            refine ⟨xs, h1, ?_, fun f' hf => ?_⟩
            · simp only [List.length_cons, List.map_cons, List.flatten_cons]
              unfold hp at h2 ⊢
              rw [e0]
              exact h2
            · have e1 := (hide_hash g a (keys (i s)) s _).trans
                ((hide_off P hK c D (off xs f' hf) (hask _ _ _ ha) s (keys (i s)) b _).trans
                  (hx c rfl (ns.map Subtype.val).flatten))
              simp only [List.length_cons, List.map_cons, List.flatten_cons]
              unfold hp
              rw [e0, e1]
              exact h3 f' hf
        | look i a =>
          cases o with
          | zero => exact stop _
          | succ o =>
            obtain ⟨xs, h1, h2, h3⟩ := ih o u q m ns issued
              (answers ++ [.found (.told (a.answer (hp P K c f D g) (keys i) issued))])
            refine ⟨xs, h1, h2, fun f' hf => ?_⟩
            have e : a.answer (hp P K c f' D g) (keys i) issued =
                a.answer (hp P K c f D g) (keys i) issued := by
              unfold hp
              rw [answer_hash, answer_hash, answer_off P c D (off xs f' hf)]
            dsimp only
            rw [e]
            exact h3 f' hf
        | derive x => cases u with
          | zero => exact stop _
          | succ u => exact ih o u q m ns issued (answers ++ [.found (.derived (D x))])
        | cipher x => cases q with
          | zero => exact stop _
          | succ q => exact ih o u q m ns issued (answers ++ [.found (.cipher (c x))])
        | mac x y => cases m with
          | zero => exact stop _
          | succ m =>
            obtain ⟨xs, h1, h2, h3⟩ := ih o u q m ns issued (answers ++ [.found (.tag (f (x, y)))])
            refine ⟨x :: xs, Nat.succ_le_succ h1, Nat.le_succ_of_le h2, fun f' hf => ?_⟩
            dsimp only
            rw [hf x y fun _ _ => List.mem_cons_self]
            exact h3 f' fun z w hz => hf z w fun e he => List.mem_cons_of_mem _ (hz e he)
      | hash x => cases q with
        | zero => exact stop _
        | succ q =>
          obtain ⟨xs, h1, h2, h3⟩ := ih o u q m ns issued (answers ++ [.hash (g x)])
          refine ⟨xs, h1, by dsimp only; rw [List.flatMap_cons, hG0]; exact h2, fun f' hf => ?_⟩
          dsimp only
          rw [h3 f' hf]
      | «unseal» x => cases q with
        | zero => exact stop _
        | succ q => cases m with
          | zero => exact stop _
          | succ m =>
            obtain ⟨xs, h1, h2, h3⟩ := ih o u q m ns issued (answers ++ [.unsealed (U x)])
            refine ⟨xs, Nat.le_succ_of_le h1, ?_, fun f' hf => ?_⟩
            · dsimp only
              rw [List.flatMap_cons, List.length_append]
              have := hG1 x
              omega
            · dsimp only
              rw [h3 f' hf]

end Pasta.C102

namespace Pasta.Plug

open C82 (count)

variable {K X Z Y I : Type}

open Classical in
/-- A function on some of the places, and one on the others. -/
noncomputable def glue (ι : K × X → I) (z : (K → X → Z) × ({i // ¬ ∃ p, ι p = i} → Z)) (i : I) : Z :=
  if h : ∃ p, ι p = i then z.1 h.choose.1 h.choose.2 else z.2 ⟨i, h⟩

theorem glue_at (ι : K × X → I) (hι : Function.Injective ι)
    (z : (K → X → Z) × ({i // ¬ ∃ p, ι p = i} → Z)) (p : K × X) : glue ι z (ι p) = z.1 p.1 p.2 := by
  have h : ∃ q, ι q = ι p := ⟨p, rfl⟩
  unfold glue
  rw [dif_pos h, hι h.choose_spec]

/-- Nothing else is in a function on all places. -/
noncomputable def glueEquiv (ι : K × X → I) (hι : Function.Injective ι) :
    (K → X → Z) × ({i // ¬ ∃ p, ι p = i} → Z) ≃ (I → Z) where
  toFun := glue ι
  invFun φ := (fun k x => φ (ι (k, x)), fun i => φ i.1)
  left_inv z := by
    refine Prod.ext (funext fun k => funext fun x => glue_at ι hι z (k, x)) (funext fun i => ?_)
    show glue ι z i.1 = z.2 i
    unfold glue
    rw [dif_neg i.2]
  right_inv φ := by
    funext i
    unfold glue
    by_cases h : ∃ p, ι p = i
    · rw [dif_pos h]
      exact congrArg φ h.choose_spec
    · rw [dif_neg h]

variable [DecidableEq K] [DecidableEq X] [DecidableEq I] [Fintype K] [Fintype X] [Fintype Z] [Fintype Y]
  [Fintype I]

/-- `forged`, where the tags stand among other values of a random function. -/
theorem forged_among (ι : K × X → I) (hι : Function.Injective ι) (n : Nat) (x0 : Y → X)
    (touched : Y → Z → (I → Z) → List K) (guesses : Y → Z → (I → Z) → List (X × Z))
    (ht : ∀ y z φ, (touched y z φ).length ≤ n) (hg : ∀ y z φ, (guesses y z φ).length ≤ n)
    (bad : Y × K × (I → Z) → Prop)
    (h : ∀ y ak (φ φ' : I → Z), (∀ i, (∀ x, i ≠ ι (ak, x)) → φ' i = φ i) →
      ak ∉ touched y (φ' (ι (ak, x0 y))) φ → bad (y, ak, φ') →
      ∃ p ∈ guesses y (φ' (ι (ak, x0 y))) φ, p.1 ≠ x0 y ∧ φ' (ι (ak, p.1)) = p.2)
    (hK : 0 < Fintype.card K) (hZ : 0 < Fintype.card Z) :
    (count bad : ℚ) / Fintype.card (Y × K × (I → Z)) ≤ n / Fintype.card K + n / Fintype.card Z := by
  classical
  let E := glueEquiv (Z := Z) ι hι
  let re : (Y × ({i // ¬ ∃ p, ι p = i} → Z)) × K × (K → X → Z) ≃ Y × K × (I → Z) :=
    { toFun := fun z => (z.1.1, z.2.1, E (z.2.2, z.1.2))
      invFun := fun z => ((z.1, (E.symm z.2.2).2), z.2.1, (E.symm z.2.2).1)
      left_inv := fun z => by simp
      right_inv := fun z => by simp }
  have e1 : count bad = count fun z => bad (re z) := (count_bij re.bijective fun _ => Iff.rfl).symm
  rw [e1, ← Fintype.card_congr re]
  refine forged n (fun y => x0 y.1) (fun y z T => touched y.1 z (E (T, y.2)))
    (fun y z T => guesses y.1 z (E (T, y.2))) (fun _ _ _ => ht _ _ _) (fun _ _ _ => hg _ _ _) _ ?_ hK hZ
  rintro ⟨y, u⟩ ak T row hak hb
  have ea : ∀ x, E (Function.update T ak row, u) (ι (ak, x)) = row x := fun x => by
    refine (glue_at ι hι _ _).trans ?_
    dsimp only
    rw [Function.update_self]
  have hoff : ∀ i, (∀ x, i ≠ ι (ak, x)) → E (Function.update T ak row, u) i = E (T, u) i := by
    intro i hi
    show glue ι _ i = glue ι _ i
    unfold glue
    by_cases hp : ∃ p, ι p = i
    · rw [dif_pos hp, dif_pos hp]
      have hne : hp.choose.1 ≠ ak := fun e => hi hp.choose.2 (by
        rw [← e]; exact hp.choose_spec.symm)
      dsimp only
      rw [Function.update_of_ne hne]
    · rw [dif_neg hp, dif_neg hp]
  have := h y ak (E (T, u)) (E (Function.update T ak row, u)) hoff
  simp only [ea] at this
  exact this hak hb

end Pasta.Plug
