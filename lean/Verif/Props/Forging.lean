import Verif.Spec.Forging
import Verif.Lemmas.Trees
import Verif.Lemmas.Wrap
import Verif.Props.TokenText
import Verif.Props.Pie
import Verif.Props.Birthday

/-!
# Forging takes 2^384 or 2^256 attempts (C81)

Whoever has tokens and wrapped keys made under a key as they like and hands in `q` texts of their own
gets one accepted that they were not given with probability at most `q / 2^384` (version 3) or
`q / 2^256` (version 4), if the MAC behaves like a random function.
-/

namespace Pasta.C81

open Spec (header Fits tokenText paserkText pieType pieTagged)

variable {P : Prims} {v : Ver}

/-! ### What does not depend on the tags -/

theorem encInfo_not (n : Bytes) : isTagInput (Spec.encInfo n) = false := rfl
theorem authInfo_not (n : Bytes) : isTagInput (Spec.authInfo n) = false := rfl

theorem localMac_tags (f : Tags v) (ak m : Bytes) (h : isTagInput m = true) :
    Spec.localMac (P.withTags v f) v ak m = (f (ak, m)).1 := by
  cases v
  · simp [Spec.localMac, Prims.withTags, h]
  · simp [Spec.localMac, Prims.withTags, h]

theorem mac_tags (f : Tags v) (ak m : Bytes) (h : isTagInput m = true) :
    Spec.mac (P.withTags v f) v ak m = (f (ak, m)).1 := by
  cases v
  · simp [Spec.mac, Prims.withTags, h]
  · simp [Spec.mac, Prims.withTags, h]

theorem localAuthKey_tags (f : Tags v) (k : BytesN 32) (n : Bytes) :
    Spec.localAuthKey (P.withTags v f) v k n = Spec.localAuthKey P v k n := by
  cases v
  · rfl
  · simp [Spec.localAuthKey, Spec.v4AuthKey, Prims.withTags, authInfo_not]

theorem codeStream_tags (f : Tags v) (k : BytesN 32) (n : Bytes) :
    codeStream (P.withTags v f) v k n = codeStream P v k n := by
  cases v
  · rfl
  · simp [codeStream, Spec.v4EncKey, Prims.withTags, encInfo_not]

theorem pieAuthKey_tags (f : Tags v) (k : BytesN 32) (n : Bytes) :
    Spec.pieAuthKey (P.withTags v f) v k n = Spec.pieAuthKey P v k n := by
  have h : isTagInput (Spec.pieAuthInput n) = false := rfl
  cases v <;> simp [Spec.pieAuthKey, Prims.withTags, h]

theorem pieCodeStream_tags (f : Tags v) (k : BytesN 32) (n : Bytes) :
    pieCodeStream (P.withTags v f) v k n = pieCodeStream P v k n := by
  have h : isTagInput (Spec.pieEncInput n) = false := rfl
  cases v
  · simp only [pieCodeStream, Spec.v3PieEnc, Prims.withTags, h]
    rfl
  · simp [pieCodeStream, Spec.v4PieEnc, Prims.withTags, h]

theorem edFromKeypair_tags (f : Tags .V4) (b : BytesN 64) :
    Key.edFromKeypair (P.withTags .V4 f) b = Key.edFromKeypair P b := by
  unfold Key.edFromKeypair
  generalize BytesN.split 32 32 _ b = sp
  obtain ⟨s, p⟩ := sp
  dsimp only
  cases h : P.edParse p with
  | none =>
    have h' : (P.withTags .V4 f).edParse p = none := h
    rw [h']
  | some pk =>
    have h' : (P.withTags .V4 f).edParse p = some pk := h
    rw [h']
    rfl

theorem fromBytes_tags (f : Tags v) (k : WKind) (b : BytesN (keyLen v k.kind)) :
    (Key.fromBytes (P.withTags v f) v k.kind b >>= fun key => (.ok key.toBytes : Res (BytesN _))) =
      (Key.fromBytes P v k.kind b >>= fun key => (.ok key.toBytes : Res (BytesN _))) := by
  have okOr : ∀ {α κ κ' β : Type} (o : Option α) (f : α → κ) (f' : α → κ') (g : κ → β)
      (g' : κ' → β) (_ : ∀ x, g (f x) = g' (f' x)),
      ((Res.okOr .invalidKey o >>= fun x => pure (f x)) >>= fun k => (Res.ok (g k) : Res β)) =
      ((Res.okOr .invalidKey o >>= fun x => pure (f' x)) >>= fun k => (Res.ok (g' k) : Res β)) := by
    intro α κ κ' β o f f' g g' h
    cases o with
    | none => rfl
    | some x => exact congrArg Res.ok (h x)
  cases v <;> cases k
  · rfl
  · exact okOr (Key.p384ScalarFromSlice P b.1) _ _ _ _ fun _ => rfl
  · rfl
  · have e := edFromKeypair_tags (P := P) f b
    show ((Res.okOr .invalidKey (Key.edFromKeypair (P.withTags .V4 f) b) >>= fun s =>
      pure (Key.mk s : Key (P.withTags .V4 f) .V4 .Secret)) >>= _) = _
    rw [e]
    exact okOr (Key.edFromKeypair P b)
      (fun s : BytesN 32 => (Key.mk s : Key (P.withTags .V4 f) .V4 .Secret))
      (fun s : BytesN 32 => (Key.mk s : Key P .V4 .Secret))
      (fun k => k.toBytes) (fun k => k.toBytes) fun _ => rfl

/-! ### The parts of what is issued or presented -/

/-- The parts of a token or wrapped key, without the tag. -/
inductive Parts (v : Ver) where
  | token (suffix n c f i : Bytes)
  | pie (k : WKind) (n : BytesN 32) (c : BytesN (keyLen v k.kind))

namespace Parts

/-- What the tag is computed from. -/
def input (P : Prims) (key : BytesN 32) : Parts v → Bytes × Bytes
  | .token suf n c f i =>
    (Spec.localAuthKey P v key n, Spec.localPreAuth (header v .Local suf) n c f i)
  | .pie k n c => (Spec.pieAuthKey P v key n.1, pieTagged v k.kind n.1 c.1)

/-- The text with a tag. -/
def text (t : BytesN (Spec.tagLen v)) : Parts v → Bytes
  | .token suf n c f _ => tokenText (header v .Local suf) (n ++ c ++ t.1) f
  | .pie k n c => paserkText v (pieType k.kind) (t.1 ++ n.1 ++ c.1)

def item (t : BytesN (Spec.tagLen v)) : Parts v → Item
  | .token suf n c f i => .token ((Parts.token suf n c f i : Parts v).text t) i
  | .pie k n c => .wrapped ((Parts.pie k n c : Parts v).text t)

def Fits : Parts v → Prop
  | .token suf n c f i =>
    Spec.Fits (header v .Local suf) ∧ Spec.Fits n ∧ Spec.Fits c ∧ Spec.Fits f ∧ Spec.Fits i
  | .pie .. => True

theorem input_tag (key : BytesN 32) (p : Parts v) : isTagInput (p.input P key).2 = true := by
  cases p with
  | token => rfl
  | pie => cases v <;> rfl

theorem msg_inj {key key' : BytesN 32} {p q : Parts v} (hp : p.Fits) (hq : q.Fits)
    (h2 : (p.input P key).2 = (q.input P key').2) : p = q := by
  have ht : ∀ h n c f i : Bytes, (Spec.localPreAuth h n c f i).head? = some 5 := fun _ _ _ _ _ => rfl
  have hk : ∀ (k : WKind) (n c : Bytes), (pieTagged v k.kind n c).head? = some 0x6b := by
    intro k n c; cases v <;> rfl
  cases p with
  | token s n c f i =>
    cases q with
    | token s' n' c' f' i' =>
      obtain ⟨e1, rfl, rfl, rfl, rfl⟩ := localPreAuth_inj hp hq h2
      rw [(header_inj e1).2.2]
    | pie k' n' c' =>
      exfalso
      have := (ht _ _ _ _ _).symm.trans ((congrArg List.head? h2).trans (hk _ _ _))
      revert this; decide
  | pie k n c =>
    cases q with
    | token s' n' c' f' i' =>
      exfalso
      have := (hk _ _ _).symm.trans ((congrArg List.head? h2).trans (ht _ _ _ _ _))
      revert this; decide
    | pie k' n' c' =>
      obtain ⟨-, rfl, rfl, e⟩ := C35.pieTagged_inj h2
      rw [Subtype.ext e]

theorem input_inj {key : BytesN 32} {p q : Parts v} (hp : p.Fits) (hq : q.Fits)
    (h : p.input P key = q.input P key) : p = q := msg_inj hp hq (Prod.mk.inj h).2

end Parts

theorem pieTagged_tag (v : Ver) (k : Kind) (n c : Bytes) : isTagInput (pieTagged v k n c) = true := by
  cases v <;> rfl

/-- The key of the game, for other tags. -/
abbrev keyOf (P : Prims) (key : BytesN 32) (f : Tags v) : Key (P.withTags v f) v .Local := ⟨key⟩

/-- A request to issue fails whatever the tags are, or makes the text of some parts with their tag. -/
theorem issue (P : Prims) (key : BytesN 32) (a : Asked v) (hfit : a.Fits) (ha : a.isAttempt = false) :
    (∃ r, ∀ f : Tags v, a.run (P.withTags v f) (keyOf P key f) = r) ∨
    ∃ p : Parts v, p.Fits ∧ (∀ f : Tags v, a.run (P.withTags v f) (keyOf P key f) =
        .ok (p.text (f (p.input P key)))) ∧
      ∀ t, a.issues (.ok (p.text t)) = some (p.item t) := by
  cases a with
  | decrypt => cases ha
  | unwrap => cases ha
  | encrypt M F E iP iM iF b i rng =>
    obtain ⟨h1, h2, h3, h4⟩ := hfit
    by_cases hr : 32 ≤ rng.length
    · cases hm : MessageEncoding.encode b.tok.encoding b.tok.message with
      | error e =>
        refine .inl ⟨.err (.payloadError e), fun f => ?_⟩
        show (b.encryptWithAssertionsAndRng _ _ i rng >>= _) = _
        unfold TokenBuilder.encryptWithAssertionsAndRng ValidatedToken.encryptInner fillBytes
        rw [dif_pos hr, hm]
        rfl
      | ok m =>
        cases hf : Footer.encode b.tok.footer with
        | none =>
          refine .inl ⟨.panic, fun f => ?_⟩
          show (b.encryptWithAssertionsAndRng _ _ i rng >>= _) = _
          unfold TokenBuilder.encryptWithAssertionsAndRng ValidatedToken.encryptInner fillBytes
          rw [dif_pos hr, hm, hf]
          rfl
        | some fo =>
          have hn : (rng.take 32).length = 32 := by simp; omega
          have hl := h3 m hm
          have hc : (applyKeystream (codeStream P v key (rng.take 32)) m).length = m.length :=
            applyKeystream_length _ _
          have hF1 : Spec.Fits (rng.take 32) := by unfold Spec.Fits; omega
          have hF2 : Spec.Fits (applyKeystream (codeStream P v key (rng.take 32)) m) := by
            unfold Spec.Fits; omega
          refine .inr ⟨.token (Payload.suffix E) (rng.take 32)
            (applyKeystream (codeStream P v key (rng.take 32)) m) fo i,
            ⟨h1, hF1, hF2, h4 fo hf, h2⟩, fun f => ?_, fun t => rfl⟩
          have he := (encrypt_ok_iff (P := P.withTags v f) b (keyOf P key f) i rng (rng.drop 32) _).2
            ⟨rng.take 32, m, fo, hn, (List.take_append_drop 32 rng).symm, hm, hf, rfl⟩
          show (b.encryptWithAssertionsAndRng _ _ i rng >>= _) = _
          rw [he, Res.ok_bind]
          simp only [Res.pure_def]
          rw [SecuredToken.display_eq, codeStream_tags, localAuthKey_tags,
            localPreAuth_eq h1 hF1 hF2 (h4 fo hf) h2, localMac_tags _ _ _ rfl]
          rfl
    · refine .inl ⟨.panic, fun f => ?_⟩
      show (b.encryptWithAssertionsAndRng _ _ i rng >>= _) = _
      unfold TokenBuilder.encryptWithAssertionsAndRng fillBytes
      rw [dif_neg hr]
      rfl
  | wrap k hidden rng =>
    have run_eq : ∀ f : Tags v, (Asked.wrap k hidden rng).run (P.withTags v f) (keyOf P key f) =
        (Key.fromBytes (P.withTags v f) v k.kind hidden >>= fun hidden =>
          hidden.wrapPie (keyOf P key f) rng >>= fun wr => wr.1.display) := fun f => rfl
    rcases Key.fromBytes_cases (P := P) hidden with ⟨k0, h0⟩ | h0
    · have hb : ∀ f : Tags v, ∃ k1, Key.fromBytes (P.withTags v f) v k.kind hidden = .ok k1 ∧
          k1.toBytes = k0.toBytes := by
        intro f
        have e := fromBytes_tags (P := P) f k hidden
        rw [h0, Res.ok_bind] at e
        rcases Key.fromBytes_cases (P := P.withTags v f) hidden with ⟨k1, h1⟩ | h1
        · rw [h1, Res.ok_bind] at e
          exact ⟨k1, h1, Res.ok.inj e⟩
        · rw [h1] at e; cases e
      by_cases hr : 32 ≤ rng.length
      · have hn : (rng.take 32).length = 32 := by simp; omega
        refine .inr ⟨.pie k ⟨rng.take 32, hn⟩
          (applyKeystreamN (pieCodeStream P v key (rng.take 32)) k0.toBytes), trivial, fun f => ?_,
          fun t => rfl⟩
        obtain ⟨k1, h1, h2⟩ := hb f
        have hlen := (f (Parts.input P key (.pie k ⟨rng.take 32, hn⟩
          (applyKeystreamN (pieCodeStream P v key (rng.take 32)) k0.toBytes)))).2
        have hw := (Key.wrapPie_ok_iff k1 (keyOf P key f) rng (rng.drop 32)
          ⟨⟨_, by rw [pieTagLen_eq]; exact hlen⟩, ⟨rng.take 32, hn⟩,
            applyKeystreamN (pieCodeStream P v key (rng.take 32)) k0.toBytes⟩).2
          ⟨(List.take_append_drop 32 rng).symm, by rw [pieCodeStream_tags, h2], by
            unfold Spec.pieTag
            rw [pieAuthKey_tags, mac_tags _ _ _ (pieTagged_tag _ _ _ _)]
            rfl⟩
        rw [run_eq, h1, Res.ok_bind, hw, Res.ok_bind, PieWrappedKey.display_eq]
        rfl
      · refine .inl ⟨.panic, fun f => ?_⟩
        obtain ⟨k1, h1, -⟩ := hb f
        rw [run_eq, h1, Res.ok_bind]
        unfold Key.wrapPie fillBytes
        rw [dif_neg hr]
        rfl
    · refine .inl ⟨.err .invalidKey, fun f => ?_⟩
      have e := fromBytes_tags (P := P) f k hidden
      rw [h0] at e
      rcases Key.fromBytes_cases (P := P.withTags v f) hidden with ⟨k1, h1⟩ | h1
      · rw [h1] at e; cases e
      · rw [run_eq, h1]; rfl

/-- An attempt fails whatever the tags are, or is accepted only if it guesses the tag of its parts. -/
theorem attempt (P : Prims) (key : BytesN 32) (a : Asked v) (hfit : a.Fits) (ha : a.isAttempt = true) :
    (∃ r, ∀ f : Tags v, a.run (P.withTags v f) (keyOf P key f) = r ∧
      ∀ item, ¬ a.Accepted (P.withTags v f) (keyOf P key f) item) ∨
    ∃ (p : Parts v) (t : BytesN (Spec.tagLen v)) (r : Res Bytes), p.Fits ∧
      ∀ f : Tags v, a.run (P.withTags v f) (keyOf P key f) =
          (if f (p.input P key) = t then r else .err .cryptoError) ∧
        ∀ item, a.Accepted (P.withTags v f) (keyOf P key f) item →
          f (p.input P key) = t ∧ item = p.item t := by
  cases a with
  | encrypt => cases ha
  | wrap => cases ha
  | decrypt M F E iP iM iF text look i =>
    obtain ⟨h1, h2, h3⟩ := hfit
    have run_eq : ∀ f : Tags v,
        (Asked.decrypt M F E iP iM iF text look i).run (P.withTags v f) (keyOf P key f) =
        (SecuredToken.parse v .Local F E text >>= fun t =>
          t.decryptWithAssertions M (P.withTags v f) (keyOf P key f) i >>= fun r => .ok (look r)) :=
      fun f => rfl
    cases hp : SecuredToken.parse v .Local F E text with
    | err e =>
      refine .inl ⟨.err e, fun f => ⟨by rw [run_eq, hp]; rfl, ?_⟩⟩
      rintro item ⟨t, ht, -⟩
      rw [hp] at ht; cases ht
    | panic =>
      refine .inl ⟨.panic, fun f => ⟨by rw [run_eq, hp]; rfl, ?_⟩⟩
      rintro item ⟨t, ht, -⟩
      rw [hp] at ht; cases ht
    | ok tok =>
      have hpf := isToken_partsFit ((C05.parse_iff text tok).1 hp).1 h2 h3
      by_cases hs : tok.payload.length < 32 + tagSize v
      · refine .inl ⟨.panic, fun f => ⟨by rw [run_eq, hp, Res.ok_bind, decrypt_short _ _ _ hs]; rfl, ?_⟩⟩
        rintro item ⟨t, ht, -, hn, -⟩
        rw [hp] at ht
        cases ht
        exact hn (decrypt_short _ _ _ hs)
      · obtain ⟨n, c, g, hsp, hn, hg⟩ := payload_split v tok.payload (by omega)
        have hg' : g.length = Spec.tagLen v := by rw [hg]; cases v <;> rfl
        obtain ⟨f1, f2⟩ := fits_pieces hpf.message hsp
        have hd : ∀ f : Tags v, tok.decryptWithAssertions M (P.withTags v f) (keyOf P key f) i =
            if f (Parts.input P key (.token (Payload.suffix E) n c tok.encodedFooter i : Parts v)) =
                ⟨g, hg'⟩ then
              (Res.ofExcept (MessageDecoding.decode tok.encoding
                (applyKeystream (codeStream P v key n) c)) >>= fun message =>
                .ok { encoding := tok.encoding, message, footer := tok.footer })
            else .err .cryptoError := by
          intro f
          rw [decrypt_split tok (keyOf P key f) i n c g hsp hn hg, codeStream_tags, localAuthKey_tags,
            localPreAuth_eq h1 f1 f2 hpf.footer h3, localMac_tags _ _ _ rfl]
          apply if_congr _ rfl rfl
          constructor
          · intro h; exact Subtype.ext h.symm
          · intro h; exact (congrArg Subtype.val h).symm
        refine .inr ⟨.token (Payload.suffix E) n c tok.encodedFooter i, ⟨g, hg'⟩,
          (Res.ofExcept (MessageDecoding.decode (M := M) tok.encoding
                (applyKeystream (codeStream P v key n) c)) >>= fun message =>
                .ok (look { encoding := tok.encoding, message, footer := tok.footer })),
          ⟨h1, f1, f2, hpf.footer, h3⟩, fun f => ⟨?_, ?_⟩⟩
        · rw [run_eq, hp, Res.ok_bind, hd]
          split
          · rw [Res.bind_assoc']; rfl
          · rfl
        · rintro item ⟨t, ht, ha, -, rfl⟩
          rw [hp] at ht
          cases ht
          rw [hd] at ha
          split at ha
          · rename_i hh
            refine ⟨hh, ?_⟩
            rw [SecuredToken.display_eq, hsp]
            rfl
          · exact absurd rfl ha
  | unwrap k text =>
    have run_eq : ∀ f : Tags v, (Asked.unwrap k text).run (P.withTags v f) (keyOf P key f) =
        (PieWrappedKey.parse v k text >>= fun w => w.unwrapKey (P.withTags v f) (keyOf P key f) >>=
          fun key => .ok key.toBytes.1) := fun f => rfl
    cases hp : PieWrappedKey.parse v k text with
    | err e =>
      refine .inl ⟨.err e, fun f => ⟨by rw [run_eq, hp]; rfl, ?_⟩⟩
      rintro item ⟨t, ht, -⟩
      rw [hp] at ht; cases ht
    | panic =>
      refine .inl ⟨.panic, fun f => ⟨by rw [run_eq, hp]; rfl, ?_⟩⟩
      rintro item ⟨t, ht, -⟩
      rw [hp] at ht; cases ht
    | ok w =>
      have hd : ∀ f : Tags v, w.unwrapKey (P.withTags v f) (keyOf P key f) =
          if f (Parts.input P key (.pie k w.nonce w.wrappedKey)) =
              ⟨w.tag.1, pieTagLen_eq v ▸ w.tag.2⟩ then
            Key.fromBytes (P.withTags v f) v k.kind
              (applyKeystreamN (pieCodeStream P v key w.nonce.1) w.wrappedKey)
          else .err .cryptoError := by
        intro f
        rw [PieWrappedKey.unwrapKey_eq, pieCodeStream_tags]
        unfold Spec.pieTag
        rw [pieAuthKey_tags, mac_tags _ _ _ (pieTagged_tag _ _ _ _)]
        apply if_congr _ rfl rfl
        constructor
        · intro h; exact Subtype.ext h.symm
        · intro h; exact (congrArg Subtype.val h).symm
      refine .inr ⟨.pie k w.nonce w.wrappedKey, ⟨w.tag.1, pieTagLen_eq v ▸ w.tag.2⟩,
        (Key.fromBytes P v k.kind
              (applyKeystreamN (pieCodeStream P v key w.nonce.1) w.wrappedKey) >>= fun key =>
          .ok key.toBytes.1), trivial, fun f => ⟨?_, ?_⟩⟩
      · rw [run_eq, hp, Res.ok_bind, hd]
        split
        · have e := congrArg (fun r => r >>= fun b => (.ok b.1 : Res Bytes))
            (fromBytes_tags (P := P) f k
              (applyKeystreamN (pieCodeStream P v key w.nonce.1) w.wrappedKey))
          simpa only [Res.bind_assoc', Res.ok_bind] using e
        · rfl
      · rintro item ⟨w', ht, ha, -, rfl⟩
        rw [hp] at ht
        cases ht
        rw [hd] at ha
        split at ha
        · rename_i hh
          exact ⟨hh, congrArg Item.wrapped (PieWrappedKey.parse_ok_iff.1 hp)⟩
        · exact absurd rfl ha

/-! ### The session as a strategy of guessing -/

theorem atMost_mono {X T : Type} [DecidableEq X] [DecidableEq T] [Fintype T] (s : Guess X T) :
    ∀ {p q : Nat}, p ≤ q → s.AtMost p → s.AtMost q := by
  induction s with
  | stop => intros; trivial
  | look x next ih => intro p q hpq h t; exact ih t hpq (h t)
  | guess x t next ih =>
    rintro p q hpq ⟨p', rfl, h⟩
    exact ⟨q - 1, by omega, fun b => ih b (by omega) (h b)⟩

theorem forging_prefix (P : Prims) (key : Key P v .Local) (ask : List (Res Bytes) → Option (Asked v)) :
    ∀ (n q : Nat) (log : Served v), ∃ rest, forging P key ask n q log = log ++ rest := by
  intro n
  induction n with
  | zero => intro q log; exact ⟨[], by simp [forging]⟩
  | succ n ih =>
    intro q log
    unfold forging
    cases ask (log.map Prod.snd) with
    | none => exact ⟨[], by simp⟩
    | some a =>
      dsimp only
      split
      · cases q with
        | zero => exact ⟨[], by simp⟩
        | succ q =>
          obtain ⟨rest, h⟩ := ih q (log ++ [(a, a.run P key)])
          exact ⟨(a, a.run P key) :: rest, by simp [h]⟩
      · obtain ⟨rest, h⟩ := ih q (log ++ [(a, a.run P key)])
        exact ⟨(a, a.run P key) :: rest, by simp [h]⟩

/-- A text is accepted that was not issued before, after the first `k` requests. -/
def ForgedFrom (P : Prims) (key : Key P v .Local) (k : Nat) (out : Served v) : Prop :=
  ∃ before a answer after item, out = before ++ (a, answer) :: after ∧ k ≤ before.length ∧
    a.Accepted P key item ∧ item ∉ Served.items before

theorem forgedFrom_step {P : Prims} {key : Key P v .Local} {log rest out : Served v} {a : Asked v}
    {r : Res Bytes} (ho : out = (log ++ [(a, r)]) ++ rest) (h : ForgedFrom P key log.length out) :
    (∃ item, a.Accepted P key item ∧ item ∉ Served.items log) ∨
      ForgedFrom P key (log ++ [(a, r)]).length out := by
  obtain ⟨before, a', answer, after, item, he, hl, hacc, hni⟩ := h
  by_cases hb : before.length = log.length
  · left
    have h1 : log ++ ((a, r) :: rest) = before ++ (a', answer) :: after := by
      rw [← he, ho]; simp
    obtain ⟨rfl, h2⟩ := List.append_inj h1 hb.symm
    cases h2
    exact ⟨item, hacc, hni⟩
  · right
    exact ⟨before, a', answer, after, item, he, by simp; omega, hacc, hni⟩

theorem forgedFrom_end {P : Prims} {key : Key P v .Local} {log : Served v}
    (h : ForgedFrom P key log.length log) : False := by
  obtain ⟨before, a', answer, after, item, he, hl, -⟩ := h
  have := congrArg List.length he
  simp at this
  omega

/-- The points asked for are those of issued items. -/
def Known (P : Prims) (key : BytesN 32) (f : Tags v) (log : Served v) (S : Finset (Bytes × Bytes)) :
    Prop :=
  ∀ x ∈ S, ∃ p : Parts v, p.Fits ∧ x = p.input P key ∧ p.item (f x) ∈ Served.items log

theorem known_append {P : Prims} {key : BytesN 32} {f : Tags v} {log rest : Served v}
    {S : Finset (Bytes × Bytes)} (h : Known P key f log S) : Known P key f (log ++ rest) S := by
  intro x hx
  obtain ⟨p, h1, h2, h3⟩ := h x hx
  refine ⟨p, h1, h2, ?_⟩
  unfold Served.items at *
  rw [List.filterMap_append]
  exact List.mem_append_left _ h3

theorem strategy (P : Prims) (key : BytesN 32) (ask : List (Res Bytes) → Option (Asked v))
    (hask : ∀ answers a, ask answers = some a → a.Fits) : ∀ (n q : Nat) (log : Served v),
    ∃ s : Guess (Bytes × Bytes) (BytesN (Spec.tagLen v)), s.AtMost q ∧
      ∀ (f : Tags v) (S : Finset (Bytes × Bytes)), Known P key f log S →
        ForgedFrom (P.withTags v f) (keyOf P key f) log.length
          (forging (P.withTags v f) (keyOf P key f) ask n q log) →
        s.Wins f S := by
  intro n
  induction n with
  | zero => intro q log; exact ⟨.stop, trivial, fun f S _ h => forgedFrom_end h⟩
  | succ n ih =>
    intro q log
    cases hq : ask (log.map Prod.snd) with
    | none =>
      refine ⟨.stop, trivial, fun f S _ h => ?_⟩
      unfold forging at h
      rw [hq] at h
      exact forgedFrom_end h
    | some a =>
      have hfit := hask _ _ hq
      cases ha : a.isAttempt with
      | false =>
        have hstep : ∀ f : Tags v, forging (P.withTags v f) (keyOf P key f) ask (n + 1) q log =
            forging (P.withTags v f) (keyOf P key f) ask n q
              (log ++ [(a, a.run (P.withTags v f) (keyOf P key f))]) := by
          intro f
          rw [forging, hq]
          simp [ha]
        have hna : ∀ (f : Tags v) item, ¬ a.Accepted (P.withTags v f) (keyOf P key f) item := by
          intro f item h
          cases a <;> first | exact h | cases ha
        rcases issue P key a hfit ha with ⟨r, hr⟩ | ⟨p, hp, hr, hi⟩
        · obtain ⟨s, hs, hw⟩ := ih q (log ++ [(a, r)])
          refine ⟨s, hs, fun f S hk h => hw f S (known_append hk) ?_⟩
          rw [hstep, hr] at h
          obtain ⟨rest, ho⟩ := forging_prefix (P.withTags v f) (keyOf P key f) ask n q (log ++ [(a, r)])
          rcases forgedFrom_step ho h with ⟨item, h, -⟩ | h
          · exact absurd h (hna f item)
          · exact h
        · have h := fun t => ih q (log ++ [(a, .ok (p.text t))])
          choose s hs hw using h
          refine ⟨.look (p.input P key) s, hs, fun f S hk h => hw _ f _ ?_ ?_⟩
          · intro x hx
            rcases Finset.mem_insert.1 hx with rfl | hx
            · refine ⟨p, hp, rfl, ?_⟩
              unfold Served.items
              rw [List.filterMap_append]
              refine List.mem_append_right _ ?_
              simp [hi]
            · exact known_append hk x hx
          · rw [hstep, hr] at h
            obtain ⟨rest, ho⟩ := forging_prefix (P.withTags v f) (keyOf P key f) ask n q
              (log ++ [(a, .ok (p.text (f (p.input P key))))])
            rcases forgedFrom_step ho h with ⟨item, h, -⟩ | h
            · exact absurd h (hna f item)
            · exact h
      | true =>
        cases q with
        | zero =>
          refine ⟨.stop, trivial, fun f S _ h => ?_⟩
          unfold forging at h
          rw [hq] at h
          simp only [ha, if_true] at h
          exact forgedFrom_end h
        | succ q =>
          have hstep : ∀ f : Tags v, forging (P.withTags v f) (keyOf P key f) ask (n + 1) (q + 1) log =
              forging (P.withTags v f) (keyOf P key f) ask n q
                (log ++ [(a, a.run (P.withTags v f) (keyOf P key f))]) := by
            intro f
            rw [forging, hq]
            simp [ha]
          rcases attempt P key a hfit ha with ⟨r, hr⟩ | ⟨p, t, r, hp, hr⟩
          · obtain ⟨s, hs, hw⟩ := ih q (log ++ [(a, r)])
            refine ⟨s, atMost_mono s (Nat.le_succ q) hs, fun f S hk h => hw f S (known_append hk) ?_⟩
            rw [hstep, (hr f).1] at h
            obtain ⟨rest, ho⟩ := forging_prefix (P.withTags v f) (keyOf P key f) ask n q (log ++ [(a, r)])
            rcases forgedFrom_step ho h with ⟨item, h, -⟩ | h
            · exact absurd h ((hr f).2 item)
            · exact h
          · have h := fun b : Bool => ih q (log ++ [(a, if b then r else .err .cryptoError)])
            choose s hs hw using h
            refine ⟨.guess (p.input P key) t s, ⟨q, rfl, hs⟩, fun f S hk h => ?_⟩
            have hrun : a.run (P.withTags v f) (keyOf P key f) =
                if decide (f (p.input P key) = t) = true then r else .err .cryptoError := by
              rw [(hr f).1]
              simp only [decide_eq_true_eq]
            rw [hstep, hrun] at h
            obtain ⟨rest, ho⟩ := forging_prefix (P.withTags v f) (keyOf P key f) ask n q
              (log ++ [(a, if decide (f (p.input P key) = t) = true then r else .err .cryptoError)])
            rcases forgedFrom_step ho h with ⟨item, h, hni⟩ | h
            · obtain ⟨ht, rfl⟩ := (hr f).2 item h
              refine .inl ⟨fun hS => ?_, ht⟩
              obtain ⟨p', hp', hx, hin⟩ := hk _ hS
              rw [Parts.input_inj hp hp' hx, ← ht, ← Parts.input_inj hp hp' hx] at hni
              rw [← Parts.input_inj hp hp' hx] at hin
              exact hni hin
            · exact .inr (hw _ f S (known_append hk) h)

theorem card_tags (v : Ver) : Fintype.card (BytesN (Spec.tagLen v)) = 2 ^ (8 * Spec.tagLen v) := by
  rw [C75.card_bytes, pow_mul]
  norm_num

/-- The bound. For every asker there is a finite set of MAC inputs such that on every larger finite
set `X`, of all functions that could be the MAC on `X` the share for which a forgery is accepted is
at most `q / 2 ^ (8 · tag length)`, `q` being the number of texts handed in. The number `n` of
requests, the key, the primitives and the rest `d` of the MAC play no part. -/
theorem forging_bound (P : Prims) (key : BytesN 32) (ask : List (Res Bytes) → Option (Asked v))
    (hask : ∀ answers a, ask answers = some a → a.Fits) (n q : Nat) :
    ∃ X₀ : Finset (Bytes × Bytes), ∀ X, X₀ ⊆ X → ∀ d : Tags v,
      ∀ [DecidablePred fun g : X → BytesN (Spec.tagLen v) => Forged (P.withTags v (d.on X g)) ⟨key⟩
        (forging (P.withTags v (d.on X g)) ⟨key⟩ ask n q [])],
      ((Finset.univ.filter fun g : X → BytesN (Spec.tagLen v) => Forged (P.withTags v (d.on X g)) ⟨key⟩
        (forging (P.withTags v (d.on X g)) ⟨key⟩ ask n q [])).card : ℚ) /
        Fintype.card (X → BytesN (Spec.tagLen v)) ≤ q / 2 ^ (8 * Spec.tagLen v) := by
  classical
  obtain ⟨s, hs, hw⟩ := strategy P key ask hask n q []
  refine ⟨s.points, fun X hX d _ => ?_⟩
  have h := Guess.card_wins_all d X s q hs hX
  have hle := Finset.card_le_card (s := Finset.univ.filter fun g : X → BytesN (Spec.tagLen v) =>
      Forged (P.withTags v (d.on X g)) ⟨key⟩ (forging (P.withTags v (d.on X g)) ⟨key⟩ ask n q []))
    (t := Finset.univ.filter fun g : X → BytesN (Spec.tagLen v) => s.Wins (Guess.ext d X g) ∅) (by
      intro g hg
      rw [Finset.mem_filter] at hg ⊢
      refine ⟨hg.1, hw _ _ (fun x hx => absurd hx (Finset.notMem_empty x)) ?_⟩
      obtain ⟨before, a, answer, after, item, h1, h2, h3⟩ := hg.2
      exact ⟨before, a, answer, after, item, h1, Nat.zero_le _, h2, h3⟩)
  have h2 := le_trans (Nat.mul_le_mul_right _ hle) h
  rw [card_tags] at h2
  have hpos : (0 : ℚ) < Fintype.card (X → BytesN (Spec.tagLen v)) := by
    have : 0 < Fintype.card (X → BytesN (Spec.tagLen v)) := Fintype.card_pos_iff.2 ⟨fun x => d x.1⟩
    exact_mod_cast this
  rw [div_le_div_iff₀ hpos (by positivity)]
  exact_mod_cast h2

/-! ### The bound is attained, and the real MAC is one of those counted -/

/-- The MAC of `P` itself, as a function that makes the tags. -/
def ownTags (P : Prims) : (v : Ver) → Tags v
  | .V3 => fun x => P.hmacSha384 x.1 x.2
  | .V4 => fun x => P.blake2bMac 32 x.1 x.2

/-- With its own MAC for the tags, `P` is what it was. -/
theorem own_tags (P : Prims) (v : Ver) : P.withTags v (ownTags P v) = P := by
  cases v
  · simp [Prims.withTags, ownTags]
  · have : (fun (n : Nat) (k m : Bytes) => if h : n = 32 ∧ isTagInput m = true then
        (⟨(ownTags P .V4 (k, m)).1, h.1 ▸ (ownTags P .V4 (k, m)).2⟩ : BytesN n)
        else P.blake2bMac n k m) = P.blake2bMac := by
      funext n k m
      split
      · rename_i h
        obtain ⟨rfl, -⟩ := h
        rfl
      · rfl
    unfold Prims.withTags
    dsimp only
    rw [this]

/-- A wrapped key of zeros, with a tag. -/
def zeroWrap (t : BytesN (Spec.tagLen v)) : PieWrappedKey v .Local :=
  ⟨⟨t.1, by rw [pieTagLen_eq]; exact t.2⟩, ⟨List.replicate 32 0, List.length_replicate⟩,
    ⟨List.replicate (keyLen v (WKind.kind .Local)) 0, List.length_replicate⟩⟩

/-- Its parts. -/
def zeros (v : Ver) : Parts v :=
  .pie .Local ⟨List.replicate 32 0, List.length_replicate⟩
    ⟨List.replicate (keyLen v (WKind.kind .Local)) 0, List.length_replicate⟩

theorem zeros_accepted (P : Prims) (key : BytesN 32) (f : Tags v) (t : BytesN (Spec.tagLen v))
    (h : f ((zeros v).input P key) = t) :
    (Asked.unwrap .Local ((zeros v).text t)).Accepted (P.withTags v f) (keyOf P key f)
      (.wrapped ((zeros v).text t)) := by
  have hp : PieWrappedKey.parse v .Local ((zeros v).text t) = .ok (zeroWrap t) :=
    PieWrappedKey.parse_ok_iff.2 rfl
  have ht : (zeroWrap t).tag.1 = Spec.pieTag (P.withTags v f) v (WKind.kind .Local)
      (keyOf P key f).key (zeroWrap t).nonce.1 (zeroWrap t).wrappedKey.1 := by
    unfold Spec.pieTag
    rw [pieAuthKey_tags, mac_tags _ _ _ (pieTagged_tag _ _ _ _)]
    exact congrArg Subtype.val h.symm
  have hu : (zeroWrap t).unwrapKey (P.withTags v f) (keyOf P key f) ≠ .err .cryptoError ∧
      (zeroWrap t).unwrapKey (P.withTags v f) (keyOf P key f) ≠ .panic := by
    rw [PieWrappedKey.unwrapKey_eq, if_pos ht]
    rcases Key.fromBytes_cases (P := P.withTags v f) (applyKeystreamN
      (pieCodeStream (P.withTags v f) v (keyOf P key f).key (zeroWrap t).nonce.1)
        (zeroWrap t).wrappedKey) with ⟨_, h⟩ | h <;>
      rw [h] <;> simp
  exact ⟨_, hp, hu.1, hu.2, rfl⟩

/-- Guess one tag after the other. -/
def guesser (v : Ver) (q : Nat) (tags : Fin q → BytesN (Spec.tagLen v)) (answers : List (Res Bytes)) :
    Option (Asked v) :=
  if h : answers.length < q then
    some (.unwrap .Local ((zeros v).text (tags ⟨answers.length, h⟩)))
  else none

theorem guesser_asks (P : Prims) (key : Key P v .Local) (q : Nat)
    (tags : Fin q → BytesN (Spec.tagLen v)) : ∀ (n : Nat) (log : Served v), log.length + n = q →
    Served.items log = [] → ∀ i : Fin q, log.length ≤ i.1 → ∃ before answer after,
      forging P key (guesser v q tags) n n log =
        before ++ (.unwrap .Local ((zeros v).text (tags i)), answer) :: after ∧
      Served.items before = [] := by
  intro n
  induction n with
  | zero => intro log hl _ i hi; have := i.2; omega
  | succ n ih =>
    intro log hl hit i hi
    have hq : guesser v q tags (log.map Prod.snd) =
        some (.unwrap .Local ((zeros v).text (tags ⟨log.length, by omega⟩))) := by
      unfold guesser
      rw [dif_pos (by simp; omega)]
      simp
    obtain ⟨next, hnext⟩ : ∃ e : Asked v × Res Bytes, e =
        (.unwrap .Local ((zeros v).text (tags ⟨log.length, by omega⟩)), Asked.run P key
          (.unwrap .Local ((zeros v).text (tags ⟨log.length, by omega⟩)))) := ⟨_, rfl⟩
    have hstep : forging P key (guesser v q tags) (n + 1) (n + 1) log =
        forging P key (guesser v q tags) n n (log ++ [next]) := by
      rw [forging, hq]
      simp [Asked.isAttempt, hnext]
    rw [hstep]
    by_cases he : i.1 = log.length
    · obtain ⟨rest, h⟩ := forging_prefix P key (guesser v q tags) n n (log ++ [next])
      have : i = ⟨log.length, by omega⟩ := Fin.ext he
      rw [h, this]
      exact ⟨log, next.2, rest, by rw [hnext]; simp, hit⟩
    · refine ih _ (by simp; omega) ?_ i (by simp; omega)
      unfold Served.items at *
      rw [List.filterMap_append, hit, hnext]
      rfl

/-- Whoever guesses `q` tags of one wrapped key one after the other reaches the bound exactly, for
every `q` up to the number of tags. -/
theorem bound_attained (P : Prims) (v : Ver) (key : BytesN 32) (q : Nat)
    (hq : q ≤ 2 ^ (8 * Spec.tagLen v)) :
    ∃ ask : List (Res Bytes) → Option (Asked v), (∀ answers a, ask answers = some a → a.Fits) ∧
      ∃ X₀ : Finset (Bytes × Bytes), ∀ X, X₀ ⊆ X → ∀ d : Tags v,
      ∀ [DecidablePred fun g : X → BytesN (Spec.tagLen v) => Forged (P.withTags v (d.on X g)) ⟨key⟩
        (forging (P.withTags v (d.on X g)) ⟨key⟩ ask q q [])],
      ((Finset.univ.filter fun g : X → BytesN (Spec.tagLen v) => Forged (P.withTags v (d.on X g)) ⟨key⟩
        (forging (P.withTags v (d.on X g)) ⟨key⟩ ask q q [])).card : ℚ) /
        Fintype.card (X → BytesN (Spec.tagLen v)) = q / 2 ^ (8 * Spec.tagLen v) := by
  classical
  rw [← card_tags] at hq
  let tags : Fin q → BytesN (Spec.tagLen v) := fun i => (Fintype.equivFin _).symm ⟨i.1, by omega⟩
  have htags : ∀ i j, tags i = tags j → i = j := by
    intro i j h
    have := (Fintype.equivFin (BytesN (Spec.tagLen v))).symm.injective h
    exact Fin.ext (Fin.mk.inj this)
  have hfit : ∀ answers a, guesser v q tags answers = some a → a.Fits := by
    intro answers a h
    unfold guesser at h
    split at h
    · cases h; trivial
    · cases h
  refine ⟨guesser v q tags, hfit, ?_⟩
  obtain ⟨X₁, hX⟩ := forging_bound P key (guesser v q tags) hfit q q
  refine ⟨insert ((zeros v).input P key) X₁, fun X hsub d _ => le_antisymm ?_ ?_⟩
  · exact hX X (fun x hx => hsub (Finset.mem_insert_of_mem hx)) d
  · have hx : (zeros v).input P key ∈ X := hsub (Finset.mem_insert_self _ _)
    have hsup : (Finset.univ.biUnion fun i : Fin q =>
        Guess.agreeing X {(zeros v).input P key} fun _ => tags i) ⊆
        Finset.univ.filter fun g : X → BytesN (Spec.tagLen v) =>
          Forged (P.withTags v (d.on X g)) ⟨key⟩
            (forging (P.withTags v (d.on X g)) ⟨key⟩ (guesser v q tags) q q []) := by
      intro g hg
      obtain ⟨i, -, hi⟩ := Finset.mem_biUnion.1 hg
      have hi := (Finset.mem_filter.1 hi).2 ⟨_, hx⟩ (Finset.mem_singleton_self _)
      refine Finset.mem_filter.2 ⟨Finset.mem_univ _, ?_⟩
      obtain ⟨before, answer, after, h1, h2⟩ := guesser_asks (P.withTags v (d.on X g)) ⟨key⟩ q tags q []
        (by simp) rfl i (Nat.zero_le _)
      refine ⟨before, _, answer, after, _, h1, zeros_accepted P key (d.on X g) (tags i) ?_, ?_⟩
      · unfold Tags.on
        rw [dif_pos hx]
        exact hi
      · rw [h2]; exact List.not_mem_nil
    have hcard : (Finset.univ.biUnion fun i : Fin q =>
        Guess.agreeing X {(zeros v).input P key} fun _ => tags i).card *
          Fintype.card (BytesN (Spec.tagLen v)) = q * Fintype.card (X → BytesN (Spec.tagLen v)) := by
      rw [Finset.card_biUnion, Finset.sum_mul]
      · have : ∀ i : Fin q, (Guess.agreeing X {(zeros v).input P key} fun _ => tags i).card *
            Fintype.card (BytesN (Spec.tagLen v)) = Fintype.card (X → BytesN (Spec.tagLen v)) := by
          intro i
          have h := Guess.card_agreeing X {(zeros v).input P key} (fun _ => tags i)
            (Finset.singleton_subset_iff.2 hx)
          rw [Finset.card_singleton, pow_one] at h
          rw [h, Fintype.card_fun, Fintype.card_coe]
        rw [Finset.sum_congr rfl fun i _ => this i]
        simp
      · intro i _ j _ hij
        rw [Function.onFun, Finset.disjoint_left]
        intro g hi hj
        have hi := (Finset.mem_filter.1 hi).2 ⟨_, hx⟩ (Finset.mem_singleton_self _)
        have hj := (Finset.mem_filter.1 hj).2 ⟨_, hx⟩ (Finset.mem_singleton_self _)
        exact hij (htags i j (hi.symm.trans hj))
    have hle := Nat.mul_le_mul_right (Fintype.card (BytesN (Spec.tagLen v))) (Finset.card_le_card hsup)
    rw [hcard, card_tags] at hle
    have hpos : (0 : ℚ) < Fintype.card (X → BytesN (Spec.tagLen v)) := by
      have : 0 < Fintype.card (X → BytesN (Spec.tagLen v)) := Fintype.card_pos_iff.2 ⟨fun x => d x.1⟩
      exact_mod_cast this
    rw [div_le_div_iff₀ (by positivity) hpos]
    exact_mod_cast hle

end Pasta.C81
