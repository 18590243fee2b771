import Verif.Spec.Knowing
import Verif.Lemmas.Knowing
import Verif.Props.Computing
import Verif.Props.ProbingMany

/-!
# C100: computing the cipher and the MAC and having texts opened does not help telling message or key

The bounds of C96 and C99 together, and in addition MAC keys can be tried.
-/

namespace Pasta.C100

open Spec (header Fits tokenText paserkText pieType pieTagged)
open C81 (Parts keyOf)
open C82 (other count count_eq count_prod count_prod')
open C83 (blind blindAnswer comparable_tags count_mono count_or)

variable {P : Prims} {v : Ver} {K : Finset (BytesN 32)} {L : Nat}

/-! ### Authentication keys -/

/-- Where an authentication key is derived: a key in use, and a nonce. -/
abbrev Pt := BytesN 32 × EncInput

/-- Everything derived except for authentication keys. -/
abbrev Encs (v : Ver) := Pt → BytesN 32 × BytesN (ivLen v)

/-- The authentication keys. -/
abbrev Auths (v : Ver) := Pt → BytesN (authKeyLen v)

/-- Everything derived. -/
def join (v : Ver) : Encs v × Auths v ≃ Derivation v where
  toFun y := fun k x => ⟨(y.1 (k, x)).1, (y.1 (k, x)).2, y.2 (k, x)⟩
  invFun D := (fun p => ((D p.1 p.2).cipherKey, (D p.1 p.2).iv), fun p => (D p.1 p.2).authKey)
  left_inv _ := rfl
  right_inv _ := rfl

/-- The MAC key: that for wrapped keys is cut to 32 bytes. -/
def macKey {v : Ver} (p : Pt) (a : BytesN (authKeyLen v)) : Bytes := if p.2.1 then a.1.take 32 else a.1

theorem count_take (l : Nat) (hl : 32 ≤ l) (k : Bytes) :
    (count fun a : BytesN l => a.1.take 32 = k) * 2 ^ 256 ≤ Fintype.card (BytesN l) := by
  classical
  have h : (count fun a : BytesN l => a.1.take 32 = k) ≤ Fintype.card (BytesN (l - 32)) := by
    unfold C82.count
    rw [← Finset.card_univ]
    refine Finset.card_le_card_of_injOn (fun a => ⟨a.1.drop 32, by rw [List.length_drop, a.2]⟩)
      (fun _ _ => Finset.mem_coe.2 (Finset.mem_univ _)) ?_
    intro a ha b hb e
    have ha := (@Finset.mem_filter _ _ (fun _ => Classical.propDecidable _) _ _).1 ha |>.2
    have hb := (@Finset.mem_filter _ _ (fun _ => Classical.propDecidable _) _ _).1 hb |>.2
    have e := congrArg Subtype.val e
    dsimp only at e
    apply Subtype.ext
    rw [← List.take_append_drop 32 a.1, ← List.take_append_drop 32 b.1, ha, hb, e]
  refine (Nat.mul_le_mul_right _ h).trans (le_of_eq ?_)
  rw [C75.card_bytes, C75.card_bytes]
  have e : (2 : Nat) ^ 256 = 256 ^ 32 := by norm_num
  rw [e, ← pow_add, Nat.sub_add_cancel hl]

theorem count_macKey (p : Pt) (k : Bytes) :
    (count fun a : BytesN (authKeyLen v) => macKey p a = k) * 2 ^ 256 ≤
      Fintype.card (BytesN (authKeyLen v)) := by
  have hl : 32 ≤ authKeyLen v := by cases v <;> decide
  unfold macKey
  cases p.2.1 with
  | true => exact count_take _ hl k
  | false =>
    refine (Nat.mul_le_mul_right _ (count_mono fun a ha => ?_)).trans (count_take _ hl (k.take 32))
    have : a.1 = k := ha
    rw [this]

/-! ### Parts -/

/-- What is authenticated. -/
def msg : Parts v → Bytes
  | .token suf n c f i => Spec.localPreAuth (header v .Local suf) n c f i
  | .pie k n c => pieTagged v k.kind n.1 c.1

def nonce : Parts v → Bytes
  | .token _ n _ _ _ => n
  | .pie _ n _ => n.1

theorem msg_inj {p q : Parts v} (hp : p.Fits) (hq : q.Fits) (h : msg p = msg q) : p = q := by
  refine Parts.msg_inj (P := Toy.prims) (key := ⟨List.replicate 32 0, rfl⟩)
    (key' := ⟨List.replicate 32 0, rfl⟩) hp hq ?_
  cases p <;> cases q <;> exact h

variable (P K) in
/-- The primitives of the game. -/
def prims (e : Encs v) (c : CipherOf v L) (ak : Auths v) (f : Tags v) : Prims :=
  ((P.withTags v f).withDerived K v (join v (e, ak))).withCiphers (c.ciphers (P.withTags v f))

/-- The same without tags. -/
theorem prims_tags (e : Encs v) (c : CipherOf v L) (ak : Auths v) (f : Tags v) :
    prims P K e c ak f =
      ((P.withDerived K v (join v (e, ak))).withCiphers (c.ciphers P)).withTags v f := by
  unfold prims
  rw [C96.tags_derived]
  cases v <;> rfl

theorem localAuthKey_ciphers (c : Ciphers) (k : BytesN 32) (n : Bytes) :
    Spec.localAuthKey (P.withCiphers c) v k n = Spec.localAuthKey P v k n := by cases v <;> rfl

theorem pieAuthKey_ciphers (c : Ciphers) (k : BytesN 32) (n : Bytes) :
    Spec.pieAuthKey (P.withCiphers c) v k n = Spec.pieAuthKey P v k n := by cases v <;> rfl

/-- A text handed in is turned down whatever the tags are, or has parts and a tag that must be that of
the parts. -/
theorem opening (a : Opening v) (hfit : a.Fits) :
    (∀ (P : Prims) (key : BytesN 32) (f : Tags v), a.run (P.withTags v f) key = blind a) ∨
    ∃ (p : Parts v) (t : BytesN (Spec.tagLen v)) (x : EncInput), p.Fits ∧ a.item = some (p.item t) ∧
      ∀ (P : Prims) (K : Finset (BytesN 32)) (e : Encs v) (c : CipherOf v L) (ak : Auths v)
        (key : BytesN 32), key ∈ K → ∀ f : Tags v, f (macKey (key, x) (ak (key, x)), msg p) ≠ t →
        a.run (prims P K e c ak f) key = blind a := by
  cases a with
  | decrypt M F E iP iM iF text look i =>
    obtain ⟨h1, h2, h3⟩ := hfit
    have run_eq : ∀ (P : Prims) (key : BytesN 32) (f : Tags v),
        (Opening.decrypt M F E iP iM iF text look i).run (P.withTags v f) key =
        (SecuredToken.parse v .Local F E text >>= fun t =>
          t.decryptWithAssertions M (P.withTags v f) (keyOf P key f) i >>= fun r => .ok (look r)) :=
      fun P key f => rfl
    cases hp : SecuredToken.parse v .Local F E text with
    | err e => exact .inl fun P key f => by rw [run_eq, blind, hp]; rfl
    | panic => exact .inl fun P key f => by rw [run_eq, blind, hp]; rfl
    | ok tok =>
      have hpf := isToken_partsFit ((C05.parse_iff text tok).1 hp).1 h2 h3
      by_cases hs : tok.payload.length < 32 + tagSize v
      · left
        intro P key f
        rw [run_eq, blind, hp, Res.ok_bind, decrypt_short _ _ _ hs]
        dsimp only
        rw [if_pos hs]
        rfl
      · obtain ⟨n, c, g, hsp, hn, hg⟩ := payload_split v tok.payload (by omega)
        have hg' : g.length = Spec.tagLen v := by rw [hg]; cases v <;> rfl
        obtain ⟨f1, f2⟩ := fits_pieces hpf.message hsp
        refine .inr ⟨.token (Payload.suffix E) n c tok.encodedFooter i, ⟨g, hg'⟩, (false, ⟨n, hn⟩),
          ⟨h1, f1, f2, hpf.footer, h3⟩, ?_, fun P K e ci ak key hk f hf => ?_⟩
        · show (match SecuredToken.parse v .Local F E text with
            | .ok t => some (Item.token t.display i)
            | _ => none) = _
          rw [hp]
          dsimp only
          rw [SecuredToken.display_eq, hsp]
          rfl
        · rw [prims_tags, run_eq, blind, hp, Res.ok_bind,
            decrypt_split tok (keyOf _ key f) i n c g hsp hn hg, C81.localAuthKey_tags,
            localPreAuth_eq h1 f1 f2 hpf.footer h3, C81.localMac_tags _ _ _ rfl]
          dsimp only
          rw [if_neg hs, if_neg]
          · rfl
          · intro h
            refine hf (Subtype.ext ?_)
            rw [localAuthKey_ciphers, localAuthKey_derived _ hk ⟨n, hn⟩] at h
            exact h.symm
  | unwrap k text =>
    have run_eq : ∀ (P : Prims) (key : BytesN 32) (f : Tags v),
        (Opening.unwrap k text).run (P.withTags v f) key =
        (PieWrappedKey.parse v k text >>= fun w => w.unwrapKey (P.withTags v f) (keyOf P key f) >>=
          fun key => .ok key.toBytes.1) := fun P key f => rfl
    cases hp : PieWrappedKey.parse v k text with
    | err e => exact .inl fun P key f => by rw [run_eq, blind, hp]; rfl
    | panic => exact .inl fun P key f => by rw [run_eq, blind, hp]; rfl
    | ok w =>
      refine .inr ⟨.pie k w.nonce w.wrappedKey, ⟨w.tag.1, pieTagLen_eq v ▸ w.tag.2⟩, (true, w.nonce),
        trivial, ?_, fun P K e ci ak key hk f hf => ?_⟩
      · exact congrArg (fun t => some (Item.wrapped t)) (PieWrappedKey.parse_ok_iff.1 hp)
      · rw [prims_tags, run_eq, blind, hp, Res.ok_bind, PieWrappedKey.unwrapKey_eq]
        unfold Spec.pieTag
        rw [C81.pieAuthKey_tags, C81.mac_tags _ _ _ (C81.pieTagged_tag _ _ _ _), if_neg]
        · rfl
        · intro h
          refine hf (Subtype.ext ?_)
          rw [pieAuthKey_ciphers, pieAuthKey_derived _ hk w.nonce] at h
          exact h.symm

theorem stream_tags (f : Tags v) (c : CipherOf v L) (ek : BytesN 32) (iv : BytesN (ivLen v)) :
    stream ((P.withTags v f).withCiphers (c.ciphers (P.withTags v f))) v ek iv =
      stream (P.withCiphers (c.ciphers P)) v ek iv := by cases v <;> rfl

/-- What is made on request has parts, and the tag is that of the parts. -/
theorem hidden_text (P : Prims) (K : Finset (BytesN 32)) (e : Encs v) (c : CipherOf v L) (s : Side)
    (a : Veiling v) (ha : a.what.Comparable P L) (hK : a.key s ∈ K) (hfit : a.what.Fits) (b : BytesN 32) :
    ∃ (p : Parts v) (x : EncInput), p.Fits ∧ nonce p = b.1 ∧ (∀ t, a.what.item (p.text t) = p.item t) ∧
      ∀ (ak : Auths v) (f : Tags v) (rest : Rng),
        a.what.run (prims P K e c ak f) ⟨a.key s⟩ s (b.1 ++ rest) =
          .ok (p.text (f (macKey (a.key s, x) (ak (a.key s, x)), msg p)), rest) := by
  obtain ⟨key, a⟩ := a
  dsimp only at *
  cases a with
  | token M F E iP iM iF encoding message footer i =>
    obtain ⟨⟨m, hm, hl, hL, -⟩, fo, hfo⟩ := ha
    obtain ⟨h1, h2, h3, h4⟩ := hfit
    generalize hct : applyKeystream (stream (P.withCiphers (c.ciphers P)) v
      (e (key s, (false, b))).1 (e (key s, (false, b))).2) (m s) = ct
    have hlen : ct.length = (m s).length := by rw [← hct]; exact applyKeystream_length _ _
    have h5 := h3 s (m s) (hm s)
    have hF1 : Spec.Fits b.1 := by unfold Spec.Fits; rw [b.2]; norm_num
    have hF2 : Spec.Fits ct := by unfold Spec.Fits; omega
    refine ⟨.token (Payload.suffix E) b.1 ct fo i, (false, b), ⟨h1, hF1, hF2, h4 fo hfo, h2⟩, rfl,
      fun t => rfl, fun ak f rest => ?_⟩
    have hr := Hidden.token_run (K := K) ((P.withTags v f).withCiphers (c.ciphers (P.withTags v f)))
      iP iM iF (encoding s) (message s) footer i (hm s) hfo (join v (e, ak)) hK b rest
    rw [localMac_withCiphers] at hr
    rw [Hiding.run_at, prims, withDerived_withCiphers]
    refine hr.trans ?_
    rw [stream_tags]
    have e1 : (join v (e, ak) (key s) (false, b)).cipherKey = (e (key s, (false, b))).1 := rfl
    have e2 : (join v (e, ak) (key s) (false, b)).iv = (e (key s, (false, b))).2 := rfl
    rw [e1, e2, hct, localPreAuth_eq h1 hF1 hF2 (h4 fo hfo) h2, C81.localMac_tags _ _ _ rfl]
    rfl
  | wrap k hidden =>
    have hb : ∃ kb, ∀ f : Tags v,
        ∃ k1, Key.fromBytes ((P.withTags v f).withCiphers (c.ciphers (P.withTags v f))) v k.kind
          (hidden s) = .ok k1 ∧ k1.toBytes = kb := by
      obtain ⟨k0, h0⟩ := ha.1 s
      refine ⟨k0.toBytes, fun f => ?_⟩
      have e1 := fromBytes_ciphers (P := P.withTags v f) (c.ciphers (P.withTags v f)) k (hidden s)
      rw [C81.fromBytes_tags, h0, Res.ok_bind] at e1
      obtain ⟨k1, h1, h2⟩ := Res.bind_eq_ok.1 e1
      exact ⟨k1, h1, Res.ok.inj h2⟩
    obtain ⟨kb, hb⟩ := hb
    refine ⟨.pie k b (applyKeystreamN (stream (P.withCiphers (c.ciphers P)) v
      (e (key s, (true, b))).1 (e (key s, (true, b))).2) kb), (true, b), trivial, rfl, fun t => rfl,
      fun ak f rest => ?_⟩
    obtain ⟨k1, h1, h2⟩ := hb f
    have hr := Hidden.wrap_run (K := K) ((P.withTags v f).withCiphers (c.ciphers (P.withTags v f))) h1
      (join v (e, ak)) hK b rest
    rw [mac_withCiphers, h2] at hr
    rw [Hiding.run_at, prims, withDerived_withCiphers]
    refine hr.trans ?_
    rw [stream_tags, C81.mac_tags _ _ _ (C81.pieTagged_tag _ _ _ _)]
    rfl

/-! ### The game with blind openings -/

/-- The game where every opening is answered without a key. -/
def blinded (P : Prims) (c : CipherOf v L) (f : Tags v) (s : Side)
    (ask : List (Reply v L) → Option (Inquiry v)) :
    (k n o q m : Nat) → Rng → List Item → List (Reply v L) → Res (List (Reply v L))
  | 0, _, _, _, _, _, _, answers => .ok answers
  | k + 1, n, o, q, m, rng, issued, answers =>
    match ask answers with
    | none => .ok answers
    | some (.hide a) =>
      match n with
      | 0 => .ok answers
      | n + 1 => do
        let (text, rng) ← a.what.run P ⟨a.key s⟩ s rng
        blinded P c f s ask k n o q m rng (a.what.item text :: issued)
          (answers ++ [.told (some (.ok text))])
    | some (.look _ a) =>
      match o with
      | 0 => .ok answers
      | o + 1 => blinded P c f s ask k n o q m rng issued (answers ++ [.told (blindAnswer issued a)])
    | some (.cipher x) =>
      match q with
      | 0 => .ok answers
      | q + 1 => blinded P c f s ask k n o q m rng issued (answers ++ [.cipher (c x)])
    | some (.mac x y) =>
      match m with
      | 0 => .ok answers
      | m + 1 => blinded P c f s ask k n o q m rng issued (answers ++ [.tag (f (x, y))])

/-- What the requests have to keep to. -/
def Allowed (P : Prims) (K : Finset (BytesN 32)) (ask : List (Reply v L) → Option (Inquiry v)) : Prop :=
  ∀ answers, match ask answers with
    | some (.hide a) => a.what.Comparable P L ∧ (∀ s, a.key s ∈ K) ∧ a.what.Fits
    | some (.look key a) => key ∈ K ∧ a.Fits
    | _ => True

theorem atMost_mono {Pt κ μ T : Type} (t : Tries Pt κ μ T) : ∀ n o q, t.AtMost n o q → t.AtMost n (o + 1) q := by
  induction t with
  | stop => intro n o q _; trivial
  | hide p m next ih =>
    intro n o q h
    obtain ⟨n', rfl, h⟩ := h
    exact ⟨n', rfl, fun w => ih w _ _ _ (h w)⟩
  | mac x next ih =>
    intro n o q h
    obtain ⟨q', rfl, h⟩ := h
    exact ⟨q', rfl, fun w => ih w _ _ _ (h w)⟩
  | look p m g next ih =>
    intro n o q h
    obtain ⟨o', rfl, h⟩ := h
    exact ⟨o' + 1, rfl, ih _ _ _ h⟩

/-- The tags known are those of issued items. -/
def Issued (ns : List (BytesN 32)) (issued : List Item) (known : List (Bytes × BytesN (Spec.tagLen v))) :
    Prop :=
  ∀ y ∈ known, ∃ p : Parts v, p.Fits ∧ y.1 = msg p ∧ p.item y.2 ∈ issued ∧ ∀ b ∈ ns, nonce p ≠ b.1

/-- The two games differ only if a tag is guessed. -/
theorem strategy (P : Prims) (K : Finset (BytesN 32)) (e : Encs v) (c : CipherOf v L) (s : Side)
    (ask : List (Reply v L) → Option (Inquiry v)) (hask : Allowed P K ask) :
    ∀ (k o q m : Nat) (ns : List (BytesN 32)) (issued : List Item) (answers : List (Reply v L))
      (known : List (Bytes × BytesN (Spec.tagLen v))), ns.Nodup → Issued ns issued known →
    ∃ t : Tries Pt Bytes Bytes (BytesN (Spec.tagLen v)), t.AtMost ns.length o m ∧ t.Proper known ∧
      ∀ (ak : Auths v) (f : Tags v),
        knowing (prims P K e c ak f) c f s ask k ns.length o q m (ns.map Subtype.val).flatten issued
            answers ≠
          blinded (prims P K e c ak f) c f s ask k ns.length o q m (ns.map Subtype.val).flatten issued
            answers →
        t.Right macKey ak f := by
  intro k
  induction k with
  | zero => intro o q m ns issued answers known _ _; exact ⟨.stop, trivial, trivial, fun ak f h => absurd rfl h⟩
  | succ k ih =>
    intro o q m ns issued answers known hns hkn
    have hall := hask answers
    cases hq : ask answers with
    | none =>
      refine ⟨.stop, trivial, trivial, fun ak f h => absurd ?_ h⟩
      unfold knowing blinded
      rw [hq]
    | some a =>
      rw [hq] at hall
      cases a with
      | hide a =>
        cases ns with
        | nil =>
          refine ⟨.stop, trivial, trivial, fun ak f h => absurd ?_ h⟩
          unfold knowing blinded
          rw [hq]
          rfl
        | cons b ns =>
          obtain ⟨p, x, hp, hn, hi, hr⟩ := hidden_text P K e c s a hall.1 (hall.2.1 s) hall.2.2 b
          obtain ⟨hb, hns⟩ := List.nodup_cons.1 hns
          have h := fun t => ih o q m ns (a.what.item (p.text t) :: issued)
            (answers ++ [.told (some (.ok (p.text t)))]) ((msg p, t) :: known) hns (by
              intro y hy
              rcases List.mem_cons.1 hy with rfl | hy
              · refine ⟨p, hp, rfl, by rw [hi]; exact List.mem_cons_self, fun b' hb' e => ?_⟩
                rw [hn] at e
                rw [Subtype.ext e] at hb
                exact hb hb'
              · obtain ⟨p', h1, h2, h3, h4⟩ := hkn y hy
                exact ⟨p', h1, h2, List.mem_cons_of_mem _ h3, fun b' hb' => h4 b' (List.mem_cons_of_mem _ hb')⟩)
          choose t ht1 ht2 ht3 using h
          refine ⟨.hide (a.key s, x) (msg p) t, ⟨ns.length, rfl, ht1⟩, ⟨fun hm => ?_, ht2⟩,
            fun ak f h => ht3 _ ak f ?_⟩
          · obtain ⟨y, hy, e⟩ := List.mem_map.1 hm
            obtain ⟨p', h1, h2, h3, h4⟩ := hkn y hy
            have := msg_inj h1 hp (h2.symm.trans e)
            subst this
            exact h4 b List.mem_cons_self hn
          · rw [List.map_cons, List.flatten_cons, List.length_cons, knowing, blinded, hq] at h
            dsimp only at h
            rw [hr] at h
            exact h
      | look key a =>
        cases o with
        | zero =>
          refine ⟨.stop, trivial, trivial, fun ak f h => absurd ?_ h⟩
          unfold knowing blinded
          rw [hq]
        | succ o =>
          obtain ⟨t, ht1, ht2, ht3⟩ := ih o q m ns issued (answers ++ [.told (blindAnswer issued a)]) known
            hns hkn
          have hstep : ∀ (ak : Auths v) (f : Tags v),
              a.answer (prims P K e c ak f) key issued = blindAnswer issued a →
              knowing (prims P K e c ak f) c f s ask (k + 1) ns.length (o + 1) q m
                  (ns.map Subtype.val).flatten issued answers ≠
                blinded (prims P K e c ak f) c f s ask (k + 1) ns.length (o + 1) q m
                  (ns.map Subtype.val).flatten issued answers → t.Right macKey ak f := by
            intro ak f h h'
            rw [knowing, blinded, hq] at h'
            dsimp only at h'
            rw [h] at h'
            exact ht3 ak f h'
          rcases opening (L := L) a hall.2 with hr | ⟨p, g, x, hp, hit, hr⟩
          · refine ⟨t, atMost_mono t _ _ _ ht1, ht2, fun ak f h => hstep ak f ?_ h⟩
            unfold Opening.answer blindAnswer
            rw [prims_tags, hr]
            cases a.item <;> rfl
          · by_cases hin : p.item g ∈ issued
            · refine ⟨t, atMost_mono t _ _ _ ht1, ht2, fun ak f h => hstep ak f ?_ h⟩
              unfold Opening.answer blindAnswer
              rw [hit]
              dsimp only
              rw [if_pos hin, if_pos hin]
            · refine ⟨.look (key, x) (msg p) g t, ⟨o, rfl, ht1⟩, ⟨fun hk => ?_, ht2⟩, fun ak f h => ?_⟩
              · obtain ⟨p', h1, h2, h3, -⟩ := hkn _ hk
                rw [msg_inj hp h1 h2] at hin
                exact hin h3
              · by_cases hg : f (macKey (key, x) (ak (key, x)), msg p) = g
                · exact ⟨_, List.mem_cons_self, hg⟩
                · obtain ⟨y, hy, e⟩ := hstep ak f (by
                    unfold Opening.answer blindAnswer
                    rw [hr P K e c ak key hall.1 f hg]
                    cases a.item <;> rfl) h
                  exact ⟨y, List.mem_cons_of_mem _ hy, e⟩
      | cipher x =>
        cases q with
        | zero =>
          refine ⟨.stop, trivial, trivial, fun ak f h => absurd ?_ h⟩
          unfold knowing blinded
          rw [hq]
        | succ q =>
          obtain ⟨t, ht1, ht2, ht3⟩ := ih o q m ns issued (answers ++ [.cipher (c x)]) known hns hkn
          refine ⟨t, ht1, ht2, fun ak f h => ht3 ak f ?_⟩
          rw [knowing, blinded, hq] at h
          exact h
      | mac x y =>
        cases m with
        | zero =>
          refine ⟨.stop, trivial, trivial, fun ak f h => absurd ?_ h⟩
          unfold knowing blinded
          rw [hq]
        | succ m =>
          have h := fun w => ih o q m ns issued (answers ++ [.tag w]) known hns hkn
          choose t ht1 ht2 ht3 using h
          refine ⟨.mac (x, y) t, ⟨m, rfl, ht1⟩, ht2, fun ak f h => ht3 _ ak f ?_⟩
          rw [knowing, blinded, hq] at h
          exact h

/-! ### The game with blind openings is one without openings -/

/-- With the MAC known: the answers when those to requests to hide something and about the cipher are
these, and what is requested next. -/
def drive (f : Tags v) (ask : List (Reply v L) → Option (Inquiry v)) :
    (k n o q m : Nat) → List Item → List (Reply v L) → List (Calculated v L) →
      List (Reply v L) × Option (Calc v)
  | 0, _, _, _, _, _, answers, _ => (answers, none)
  | k + 1, n, o, q, m, issued, answers, seen =>
    match ask answers with
    | none => (answers, none)
    | some (.hide a) =>
      match n, seen with
      | 0, _ => (answers, none)
      | _ + 1, [] => (answers, some (.hide a))
      | n + 1, .text text :: seen =>
        drive f ask k n o q m (a.what.item text :: issued) (answers ++ [.told (some (.ok text))]) seen
      | _ + 1, .cipher _ :: _ => (answers, none)
    | some (.look _ a) =>
      match o with
      | 0 => (answers, none)
      | o + 1 => drive f ask k n o q m issued (answers ++ [.told (blindAnswer issued a)]) seen
    | some (.cipher x) =>
      match q, seen with
      | 0, _ => (answers, none)
      | _ + 1, [] => (answers, some (.cipher x))
      | q + 1, .cipher w :: seen => drive f ask k n o q m issued (answers ++ [.cipher w]) seen
      | _ + 1, .text _ :: _ => (answers, none)
    | some (.mac x y) =>
      match m with
      | 0 => (answers, none)
      | m + 1 => drive f ask k n o q m issued (answers ++ [.tag (f (x, y))]) seen

theorem drive_comparable {P : Prims} {f : Tags v} {ask : List (Reply v L) → Option (Inquiry v)}
    (hask : Allowed P K ask) :
    ∀ k n o q m issued answers seen a, (drive f ask k n o q m issued answers seen).2 = some (.hide a) →
      a.what.Comparable P L ∧ ∀ s, a.key s ∈ K := by
  intro k
  induction k with
  | zero => intro n o q m issued answers seen a h; cases h
  | succ k ih =>
    intro n o q m issued answers seen a h
    have hall := hask answers
    unfold drive at h
    cases hq : ask answers with
    | none => rw [hq] at h; cases h
    | some r =>
      rw [hq] at h hall
      cases r with
      | hide b =>
        cases n with
        | zero => cases h
        | succ n =>
          cases seen with
          | nil => cases h; exact ⟨hall.1, hall.2.1⟩
          | cons t ts =>
            cases t with
            | text t => exact ih _ _ _ _ _ _ _ _ h
            | cipher w => cases h
      | look key b =>
        cases o with
        | zero => cases h
        | succ o => exact ih _ _ _ _ _ _ _ _ h
      | cipher x =>
        cases q with
        | zero => cases h
        | succ q =>
          cases seen with
          | nil => cases h
          | cons t ts =>
            cases t with
            | text t => cases h
            | cipher w => exact ih _ _ _ _ _ _ _ _ h
      | mac x y =>
        cases m with
        | zero => cases h
        | succ m => exact ih _ _ _ _ _ _ _ _ h

theorem blinded_eq (P : Prims) (c : CipherOf v L) (f : Tags v) (s : Side)
    (ask : List (Reply v L) → Option (Inquiry v)) (next : List (Calculated v L) → Option (Calc v))
    (fin : List (Calculated v L) → List (Reply v L)) : ∀ k k' n o q m rng issued answers seen, k ≤ k' →
      (∀ ts, next (seen ++ ts) = (drive f ask k n o q m issued answers ts).2) →
      (∀ ts, fin (seen ++ ts) = (drive f ask k n o q m issued answers ts).1) →
      blinded P c f s ask k n o q m rng issued answers =
        (calcGame P c s next k' n q rng seen >>= fun ts => .ok (fin ts)) := by
  have stop : ∀ k' n q rng seen, next seen = none →
      calcGame P c s next k' n q rng seen = .ok seen := by
    intro k' n q rng seen h
    cases k' with
    | zero => rfl
    | succ k' => rw [calcGame, h]
  intro k
  induction k with
  | zero =>
    intro k' n o q m rng issued answers seen hk h1 h2
    have h1' := h1 []
    have h2' := h2 []
    rw [List.append_nil] at h1' h2'
    rw [stop _ _ _ _ _ h1', Res.ok_bind, h2']
    rfl
  | succ k ih =>
    intro k' n o q m rng issued answers seen hk h1 h2
    have h1' := h1 []
    have h2' := h2 []
    rw [List.append_nil] at h1' h2'
    have stop' : drive f ask (k + 1) n o q m issued answers [] = (answers, none) →
        (calcGame P c s next k' n q rng seen >>= fun ts => (.ok (fin ts) : Res _)) = .ok answers := by
      intro h
      rw [h] at h1' h2'
      rw [stop _ _ _ _ _ h1', Res.ok_bind, h2']
    cases hq : ask answers with
    | none => rw [stop' (by rw [drive, hq]), blinded, hq]
    | some r =>
      cases r with
      | hide a =>
        cases n with
        | zero => rw [stop' (by rw [drive, hq]), blinded, hq]
        | succ n =>
          obtain ⟨k', rfl⟩ : ∃ j, k' = j + 1 := ⟨k' - 1, by omega⟩
          rw [show drive f ask (k + 1) (n + 1) o q m issued answers [] = (answers, some (.hide a)) by
            rw [drive, hq]] at h1'
          rw [blinded, hq, calcGame, h1']
          dsimp only
          rw [Res.bind_assoc']
          congr 1
          funext r
          refine ih k' n o q m r.2 _ _ (seen ++ [.text r.1]) (by omega) (fun ts => ?_) fun ts => ?_
          · rw [List.append_assoc, h1, List.singleton_append, drive, hq]
          · rw [List.append_assoc, h2, List.singleton_append, drive, hq]
      | look key a =>
        cases o with
        | zero => rw [stop' (by rw [drive, hq]), blinded, hq]
        | succ o =>
          rw [blinded, hq]
          dsimp only
          refine ih k' n o q m rng _ _ seen (by omega) (fun ts => ?_) fun ts => ?_
          · rw [h1, drive, hq]
          · rw [h2, drive, hq]
      | cipher x =>
        cases q with
        | zero => rw [stop' (by rw [drive, hq]), blinded, hq]
        | succ q =>
          obtain ⟨k', rfl⟩ : ∃ j, k' = j + 1 := ⟨k' - 1, by omega⟩
          rw [show drive f ask (k + 1) n o (q + 1) m issued answers [] = (answers, some (.cipher x)) by
            rw [drive, hq]] at h1'
          rw [blinded, hq, calcGame, h1']
          dsimp only
          refine ih k' n o q m rng _ _ (seen ++ [.cipher (c x)]) (by omega) (fun ts => ?_) fun ts => ?_
          · rw [List.append_assoc, h1, List.singleton_append, drive, hq]
          · rw [List.append_assoc, h2, List.singleton_append, drive, hq]
      | mac x y =>
        cases m with
        | zero => rw [stop' (by rw [drive, hq]), blinded, hq]
        | succ m =>
          rw [blinded, hq]
          dsimp only
          refine ih k' n o q m rng _ _ seen (by omega) (fun ts => ?_) fun ts => ?_
          · rw [h1, drive, hq]
          · rw [h2, drive, hq]

/-! ### The bound -/

/-- The same with blind openings. -/
def blindView (P : Prims) (K : Finset (BytesN 32)) {n : Nat} {X : Finset (Bytes × Bytes)} (d : Tags v)
    (ask : List (Reply v L) → Option (Inquiry v)) (k o q m : Nat) (s : Side) (x : Known v n L X) :
    Res (List (Reply v L)) :=
  blinded (x.1.prims (P.withTags v (d.on X x.2)) K) x.1.2.2 (d.on X x.2) s ask k n o q m x.1.1.tape [] []

noncomputable instance (n : Nat) : Fintype (Blocks n × Encs v × CipherOf v L) := inferInstance

noncomputable instance (X : Finset (Bytes × Bytes)) : Fintype (Auths v × (X → BytesN (Spec.tagLen v))) :=
  inferInstance

noncomputable instance (n : Nat) (X : Finset (Bytes × Bytes)) :
    Fintype ((Blocks n × Encs v × CipherOf v L) × (Auths v × (X → BytesN (Spec.tagLen v)))) :=
  inferInstance

/-- Splitting off the authentication keys and the MAC. -/
def regroup (v : Ver) (n L : Nat) (X : Finset (Bytes × Bytes)) :
    (Blocks n × Encs v × CipherOf v L) × (Auths v × (X → BytesN (Spec.tagLen v))) ≃ Known v n L X where
  toFun y := ((y.1.1, join v (y.1.2.1, y.2.1), y.1.2.2), y.2.2)
  invFun x := ((x.1.1, ((join v).symm x.1.2.1).1, x.1.2.2), (((join v).symm x.1.2.1).2, x.2))
  left_inv _ := rfl
  right_inv _ := rfl

theorem card_pos (v : Ver) (n L : Nat) (X : Finset (Bytes × Bytes)) : 0 < Fintype.card (Known v n L X) := by
  rw [Fintype.card_pos_iff]
  refine ⟨(fun _ => ⟨List.replicate 32 0, rfl⟩, fun _ _ => ⟨⟨List.replicate 32 0, rfl⟩,
    ⟨List.replicate _ 0, List.length_replicate⟩, ⟨List.replicate _ 0, List.length_replicate⟩⟩,
    fun _ => ?_), fun _ => ⟨List.replicate _ 0, List.length_replicate⟩⟩
  cases v
  · exact fun _ => ⟨List.replicate _ 0, List.length_replicate⟩
  · exact fun _ _ => 0

theorem repeated (v : Ver) (n L : Nat) (X : Finset (Bytes × Bytes)) :
    (count fun x : Known v n L X => ¬ (List.ofFn x.1.1).Nodup) * (2 * 2 ^ 256) ≤
      n * (n - 1) * Fintype.card (Known v n L X) := by
  have h := C99.blocks_repeat n (BytesN 32)
  have hT : Fintype.card (BytesN 32) = 2 ^ 256 := by rw [C75.card_bytes]; norm_num
  rw [hT] at h
  let assoc : Blocks n × ((Derivation v × CipherOf v L) × (X → BytesN (Spec.tagLen v))) ≃ Known v n L X :=
    (Equiv.prodAssoc _ _ _).symm
  rw [← C94.count_equiv assoc, ← Fintype.card_congr assoc,
    Fintype.card_prod (Blocks n) ((Derivation v × CipherOf v L) × (X → BytesN (Spec.tagLen v)))]
  have hc : (count fun y => ¬ (List.ofFn (assoc y).1.1).Nodup) = _ :=
    C94.count_fst (β := (Derivation v × CipherOf v L) × (X → BytesN (Spec.tagLen v)))
      (fun b : Blocks n => ¬ (List.ofFn b).Nodup)
  rw [hc, Nat.mul_assoc]
  refine (Nat.mul_le_mul_left _ h).trans (le_of_eq ?_)
  show _ * (n * (n - 1) * Fintype.card (Blocks n)) = _
  ring

/-- The two views seldom differ. -/
theorem differ (P : Prims) (K : Finset (BytesN 32)) (n : Nat) (s : Side)
    (ask : List (Reply v L) → Option (Inquiry v)) (hask : Allowed P K ask) (k o q m : Nat) :
    ∃ X₀ : Finset (Bytes × Bytes), ∀ X, X₀ ⊆ X → ∀ d : Tags v,
      ((count fun x : Known v n L X => ¬ (List.ofFn x.1.1).Nodup) * (2 * 2 ^ 256) ≤
        n * (n - 1) * Fintype.card (Known v n L X)) ∧
      (count fun x : Known v n L X => (List.ofFn x.1.1).Nodup ∧
          x.view P K d ask k o q m s ≠ blindView P K d ask k o q m s x) *
        (2 ^ 256 * 2 ^ (8 * Spec.tagLen v)) ≤
      (o * 2 ^ 256 + (n + o) * m * 2 ^ (8 * Spec.tagLen v)) * Fintype.card (Known v n L X) := by
  have h := fun (z : Blocks n × Encs v × CipherOf v L) (hb : (List.ofFn z.1).Nodup) =>
    strategy P K z.2.1 z.2.2 s ask hask k o q m (List.ofFn z.1) [] [] [] hb (fun y hy => nomatch hy)
  choose t ht1 ht2 ht3 using h
  refine ⟨Finset.univ.biUnion fun z => if hb : (List.ofFn z.1).Nodup then (t z hb).points (macKey (v := v)) else ∅,
    fun X hX d => ⟨repeated v n L X, ?_⟩⟩
  rw [← C94.count_equiv (regroup v n L X), count_prod, Finset.sum_mul,
    ← Fintype.card_congr (regroup v n L X), Fintype.card_prod]
  have key : ∀ z : Blocks n × Encs v × CipherOf v L,
      (count fun y : Auths v × (X → BytesN (Spec.tagLen v)) =>
        (List.ofFn (regroup v n L X (z, y)).1.1).Nodup ∧
          (regroup v n L X (z, y)).view P K d ask k o q m s ≠
            blindView P K d ask k o q m s (regroup v n L X (z, y))) *
          (2 ^ 256 * 2 ^ (8 * Spec.tagLen v)) ≤
        (o * 2 ^ 256 + (n + o) * m * 2 ^ (8 * Spec.tagLen v)) *
          Fintype.card (Auths v × (X → BytesN (Spec.tagLen v))) := by
    intro z
    by_cases hb : (List.ofFn z.1).Nodup
    · have hx : (t z hb).points (macKey (v := v)) ⊆ X := fun y hy => hX (Finset.mem_biUnion.2
        ⟨z, Finset.mem_univ _, by rw [dif_pos hb]; exact hy⟩)
      have : Nonempty (BytesN (Spec.tagLen v)) := ⟨⟨List.replicate _ 0, List.length_replicate⟩⟩
      have hm := ht1 z hb
      rw [List.length_ofFn] at hm
      have h := Tries.right_rare (X := X) (n := n) (macKey (v := v)) d (t z hb) (2 ^ 256) count_macKey o m hm
        (ht2 z hb) hx
      rw [C81.card_tags] at h
      refine (Nat.mul_le_mul_right _ (count_mono fun y hy => ?_)).trans h
      refine ht3 z hb y.1 (Guess.ext d X y.2) ?_
      rw [List.length_ofFn]
      exact hy.2
    · rw [C99.count_none fun y hy => hb hy.1, Nat.zero_mul]
      exact Nat.zero_le _
  refine (Finset.sum_le_sum fun z _ => key z).trans (le_of_eq ?_)
  rw [Finset.sum_const, Finset.card_univ, Nat.nsmul_eq_mul]
  ring

theorem view_side (P : Prims) (K : Finset (BytesN 32)) (n k q : Nat)
    (ask : List (Calculated v L) → Option (Calc v))
    (hask : ∀ seen a, ask seen = some (.hide a) → a.what.Comparable P L ∧ ∀ s, a.key s ∈ K)
    (A : Res (List (Calculated v L)) → Prop) (s : Side) :
    count (fun x : Drawn v n L => A (x.view P K ask k q s)) * 2 ^ 256 ≤
      count (fun x : Drawn v n L => A (x.view P K ask k q (other s))) * 2 ^ 256 +
        (2 * (n * (n - 1)) + n * q) * Fintype.card (Drawn v n L) := by
  obtain ⟨co, hco, -, -, -, hg⟩ := C99.game_eq P ask hask
  simp only [C99.view_eq P hg]
  exact C99.one_side P n co hco k q (fun seen => A (.ok seen)) s

theorem blind_sides (P : Prims) (K : Finset (BytesN 32)) (n : Nat) (s : Side)
    (ask : List (Reply v L) → Option (Inquiry v)) (hask : Allowed P K ask) (k o q m : Nat)
    (X : Finset (Bytes × Bytes)) (d : Tags v) (A : Res (List (Reply v L)) → Prop) :
    count (fun x : Known v n L X => A (blindView P K d ask k o q m s x)) * 2 ^ 256 ≤
      count (fun x : Known v n L X => A (blindView P K d ask k o q m (other s) x)) * 2 ^ 256 +
        (2 * (n * (n - 1)) + n * q) * Fintype.card (Known v n L X) := by
  classical
  rw [count_prod', count_prod', Finset.sum_mul, Finset.sum_mul, Fintype.card_prod (Drawn v n L)]
  have e : (2 * (n * (n - 1)) + n * q) *
      (Fintype.card (Drawn v n L) * Fintype.card (X → BytesN (Spec.tagLen v))) =
      ∑ _g : X → BytesN (Spec.tagLen v), (2 * (n * (n - 1)) + n * q) * Fintype.card (Drawn v n L) := by
    rw [Finset.sum_const, Finset.card_univ, Nat.nsmul_eq_mul]
    ring
  rw [e, ← Finset.sum_add_distrib]
  refine Finset.sum_le_sum fun g _ => ?_
  have h := view_side (P.withTags v (d.on X g)) K n k q
    (fun ts => (drive (d.on X g) ask k n o q m [] [] ts).2)
    (fun seen a ha => ⟨comparable_tags _ _ (drive_comparable hask _ _ _ _ _ _ _ _ _ ha).1,
      (drive_comparable hask _ _ _ _ _ _ _ _ _ ha).2⟩)
    (fun r => A (r >>= fun ts => .ok (drive (d.on X g) ask k n o q m [] [] ts).1)) s
  have hv : ∀ s (x : Drawn v n L), blindView P K d ask k o q m s (x, g) =
      (x.view (P.withTags v (d.on X g)) K (fun ts => (drive (d.on X g) ask k n o q m [] [] ts).2) k q s
        >>= fun ts => .ok (drive (d.on X g) ask k n o q m [] [] ts).1) := by
    intro s x
    exact blinded_eq _ _ _ s ask _ (fun ts => (drive (d.on X g) ask k n o q m [] [] ts).1) k k n o q m _
      [] [] [] (Nat.le_refl k) (fun ts => rfl) (fun ts => rfl)
  simp only [hv]
  exact h

/-- How often the two views differ. -/
noncomputable def differing (P : Prims) (K : Finset (BytesN 32)) (n : Nat) (s : Side)
    (ask : List (Reply v L) → Option (Inquiry v)) (k o q m : Nat) (X : Finset (Bytes × Bytes))
    (d : Tags v) : Nat :=
  count fun x : Known v n L X => x.view P K d ask k o q m s ≠ blindView P K d ask k o q m s x

theorem differing_le (P : Prims) (K : Finset (BytesN 32)) (n : Nat) (s : Side)
    (ask : List (Reply v L) → Option (Inquiry v)) (hask : Allowed P K ask) (k o q m : Nat) :
    ∃ X₀ : Finset (Bytes × Bytes), ∀ X, X₀ ⊆ X → ∀ d : Tags v,
      (differing P K n s ask k o q m X d : ℚ) ≤ (n * (n - 1) / 2 ^ 257 + o / 2 ^ (8 * Spec.tagLen v) +
        (n + o) * m / 2 ^ 256) * Fintype.card (Known v n L X) := by
  obtain ⟨X₀, h⟩ := differ P K n s ask hask k o q m
  refine ⟨X₀, fun X hX d => ?_⟩
  obtain ⟨h1, h2⟩ := h X hX d
  have h3 : differing P K n s ask k o q m X d ≤ (count fun x : Known v n L X => ¬ (List.ofFn x.1.1).Nodup) +
      count fun x : Known v n L X => (List.ofFn x.1.1).Nodup ∧
        x.view P K d ask k o q m s ≠ blindView P K d ask k o q m s x := by
    refine (count_mono fun x hx => ?_).trans (count_or _ _)
    by_cases hb : (List.ofFn x.1.1).Nodup
    · exact .inr ⟨hb, hx⟩
    · exact .inl hb
  have hn : ((n * (n - 1) : Nat) : ℚ) = (n : ℚ) * (n - 1) := by
    cases n with
    | zero => simp
    | succ n => push_cast; simp
  have e257 : (2 : ℚ) ^ 257 = 2 * 2 ^ 256 := by rw [← pow_succ']
  have hC : (2 : ℚ) ^ 256 = ((2 ^ 256 : Nat) : ℚ) := by rw [Nat.cast_pow, Nat.cast_ofNat]
  have hT : (2 : ℚ) ^ (8 * Spec.tagLen v) = ((2 ^ (8 * Spec.tagLen v) : Nat) : ℚ) := by
    rw [Nat.cast_pow, Nat.cast_ofNat]
  have pC : 0 < 2 ^ 256 := by positivity
  have pT : 0 < 2 ^ (8 * Spec.tagLen v) := by positivity
  rw [e257, hC, hT]
  generalize differing P K n s ask k o q m X d = D at *
  generalize (count fun x : Known v n L X => ¬ (List.ofFn x.1.1).Nodup) = a at *
  generalize (count fun x : Known v n L X => (List.ofFn x.1.1).Nodup ∧
    x.view P K d ask k o q m s ≠ blindView P K d ask k o q m s x) = b at *
  generalize Fintype.card (Known v n L X) = N at *
  generalize 2 ^ 256 = C at *
  generalize 2 ^ (8 * Spec.tagLen v) = T at *
  have pC : (0 : ℚ) < C := Nat.cast_pos.2 pC
  have pT : (0 : ℚ) < T := Nat.cast_pos.2 pT
  have h1 : (a : ℚ) ≤ n * (n - 1) / (2 * C) * N := by
    rw [div_mul_eq_mul_div, le_div_iff₀ (by positivity), ← hn]
    exact_mod_cast h1
  have h2 : (b : ℚ) ≤ (o / T + (n + o) * m / C) * N := by
    have h2' : (b : ℚ) * (C * T) ≤ (o * C + (n + o) * m * T) * N := by exact_mod_cast h2
    have e : ((o : ℚ) / T + (n + o) * m / C) * N = (o * C + (n + o) * m * T) * N / (C * T) := by
      field_simp
    rw [e, le_div_iff₀ (by positivity)]
    exact h2'
  have h3 : (D : ℚ) ≤ a + b := by exact_mod_cast h3
  linarith

/-- What the requests have to keep to. -/
theorem allowed {P : Prims} {K : Finset (BytesN 32)} {ask : List (Reply v L) → Option (Inquiry v)}
    (hhide : ∀ answers a, ask answers = some (.hide a) →
      a.what.Comparable P L ∧ (∀ s, a.key s ∈ K) ∧ a.what.Fits)
    (hlook : ∀ answers key a, ask answers = some (.look key a) → key ∈ K ∧ a.Fits) : Allowed P K ask := by
  intro answers
  cases h : ask answers with
  | none => trivial
  | some a =>
    cases a with
    | hide a => exact hhide _ _ h
    | look key a => exact hlook _ _ _ h
    | cipher x => trivial
    | mac x y => trivial

/-- Whatever is asked for, whatever is handed in, whatever cipher keys and MAC keys are tried, and whatever
is concluded from the answers: the conclusion is drawn (almost) as often when the left candidates are used
under the left keys as when the right ones are under the right keys. -/
theorem advantage (P : Prims) (K : Finset (BytesN 32)) (k n o q m : Nat)
    (ask : List (Reply v L) → Option (Inquiry v))
    (hhide : ∀ answers a, ask answers = some (.hide a) →
      a.what.Comparable P L ∧ (∀ s, a.key s ∈ K) ∧ a.what.Fits)
    (hlook : ∀ answers key a, ask answers = some (.look key a) → key ∈ K ∧ a.Fits)
    (A : Res (List (Reply v L)) → Prop) :
    ∃ X₀ : Finset (Bytes × Bytes), ∀ X, X₀ ⊆ X → ∀ d : Tags v,
      |Known.chance (fun x : Known v n L X => A (x.view P K d ask k o q m .left)) -
          Known.chance (fun x : Known v n L X => A (x.view P K d ask k o q m .right))| ≤
        3 * (n * (n - 1)) / 2 ^ 256 + n * q / 2 ^ 256 + 2 * o / 2 ^ (8 * Spec.tagLen v) +
          2 * (n + o) * m / 2 ^ 256 := by
  classical
  have hask := allowed hhide hlook
  obtain ⟨X₁, h₁⟩ := differing_le P K n .left ask hask k o q m
  obtain ⟨X₂, h₂⟩ := differing_le P K n .right ask hask k o q m
  refine ⟨X₁ ∪ X₂, fun X hX d => ?_⟩
  have d1 := h₁ X (fun x hx => hX (Finset.mem_union_left _ hx)) d
  have d2 := h₂ X (fun x hx => hX (Finset.mem_union_right _ hx)) d
  have b1 := blind_sides P K n .left ask hask k o q m X d A
  have b2 := blind_sides P K n .right ask hask k o q m X d A
  simp only [other] at b1 b2
  have hor : ∀ s, count (fun x : Known v n L X => A (x.view P K d ask k o q m s)) ≤
      count (fun x : Known v n L X => A (blindView P K d ask k o q m s x)) +
        differing P K n s ask k o q m X d := by
    intro s
    refine le_trans (count_mono fun x hx => ?_) (count_or _ _)
    by_cases h : x.view P K d ask k o q m s = blindView P K d ask k o q m s x
    · rw [h] at hx; exact .inl hx
    · exact .inr h
  have hro : ∀ s, count (fun x : Known v n L X => A (blindView P K d ask k o q m s x)) ≤
      count (fun x : Known v n L X => A (x.view P K d ask k o q m s)) +
        differing P K n s ask k o q m X d := by
    intro s
    refine le_trans (count_mono fun x hx => ?_) (count_or _ _)
    by_cases h : x.view P K d ask k o q m s = blindView P K d ask k o q m s x
    · rw [← h] at hx; exact .inl hx
    · exact .inr h
  have hN := card_pos v n L X
  have l1 := hor .left
  have l2 := hro .left
  have r1 := hor .right
  have r2 := hro .right
  unfold Known.chance
  rw [count_eq, count_eq]
  have hn : ((n * (n - 1) : Nat) : ℚ) = (n : ℚ) * (n - 1) := by
    cases n with
    | zero => simp
    | succ n => push_cast; simp
  have e257 : (2 : ℚ) ^ 257 = 2 * 2 ^ 256 := by rw [← pow_succ']
  have hC : (2 : ℚ) ^ 256 = ((2 ^ 256 : Nat) : ℚ) := by rw [Nat.cast_pow, Nat.cast_ofNat]
  have pC : 0 < 2 ^ 256 := by positivity
  rw [e257, hC] at d1 d2
  rw [hC]
  generalize (count fun x : Known v n L X => A (x.view P K d ask k o q m .left)) = a at *
  generalize (count fun x : Known v n L X => A (x.view P K d ask k o q m .right)) = b at *
  generalize (count fun x : Known v n L X => A (blindView P K d ask k o q m .left x)) = a' at *
  generalize (count fun x : Known v n L X => A (blindView P K d ask k o q m .right x)) = b' at *
  generalize differing P K n .left ask k o q m X d = l at *
  generalize differing P K n .right ask k o q m X d = r at *
  generalize Fintype.card (Known v n L X) = N at *
  generalize (2 : ℚ) ^ (8 * Spec.tagLen v) = T at *
  generalize 2 ^ 256 = C at *
  have pC : (0 : ℚ) < C := Nat.cast_pos.2 pC
  have pN : (0 : ℚ) < N := Nat.cast_pos.2 hN
  have b1 : (a' : ℚ) ≤ b' + (2 * (n * (n - 1)) + n * q) / C * N := by
    have h : (a' : ℚ) * C ≤ b' * C + (2 * (n * (n - 1)) + n * q) * N := by rw [← hn]; exact_mod_cast b1
    rw [← mul_le_mul_iff_left₀ pC]
    have e : (b' + (2 * ((n : ℚ) * (n - 1)) + n * q) / C * N) * C =
      b' * C + (2 * (n * (n - 1)) + n * q) * N := by field_simp
    rw [e]; exact h
  have b2 : (b' : ℚ) ≤ a' + (2 * (n * (n - 1)) + n * q) / C * N := by
    have h : (b' : ℚ) * C ≤ a' * C + (2 * (n * (n - 1)) + n * q) * N := by rw [← hn]; exact_mod_cast b2
    rw [← mul_le_mul_iff_left₀ pC]
    have e : (a' + (2 * ((n : ℚ) * (n - 1)) + n * q) / C * N) * C =
      a' * C + (2 * (n * (n - 1)) + n * q) * N := by field_simp
    rw [e]; exact h
  have l1 : (a : ℚ) ≤ a' + l := by exact_mod_cast l1
  have l2 : (a' : ℚ) ≤ a + l := by exact_mod_cast l2
  have r1 : (b : ℚ) ≤ b' + r := by exact_mod_cast r1
  have r2 : (b' : ℚ) ≤ b + r := by exact_mod_cast r2
  have e : (3 * ((n : ℚ) * (n - 1)) / C + n * q / C + 2 * o / T + 2 * (n + o) * m / C) * N =
      (2 * (n * (n - 1)) + n * q) / C * N +
        2 * ((n * (n - 1) / (2 * C) + o / T + (n + o) * m / C) * N) := by
    have e1 : (n : ℚ) * (n - 1) / (2 * C) = n * (n - 1) / C / 2 := by
      rw [div_div, mul_comm (C : ℚ) 2]
    rw [e1]
    ring
  rw [← sub_div, abs_div, abs_of_pos pN, div_le_iff₀ pN, e, abs_le]
  constructor <;> linarith

/-! ### Nothing is opened -/

theorem blind_not_ok (a : Opening v) (b : Bytes) : blind a ≠ .ok b := by
  intro h
  cases a with
  | decrypt M F E iP iM iF text look i =>
    unfold blind at h
    dsimp only at h
    split at h
    · split at h <;> cases h
    · cases h
    · cases h
  | unwrap k text =>
    unfold blind at h
    dsimp only at h
    split at h <;> cases h

theorem blindAnswer_not_ok (issued : List Item) (a : Opening v) (b : Bytes) :
    blindAnswer issued a ≠ some (.ok b) := by
  unfold blindAnswer
  intro h
  split at h
  · split at h
    · cases h
    · exact blind_not_ok a b (Option.some.inj h)
  · exact blind_not_ok a b (Option.some.inj h)

theorem opened_snoc {ask : List (Reply v L) → Option (Inquiry v)} {answers : List (Reply v L)} {r : Reply v L}
    (h : ¬ Opened ask answers)
    (hr : ∀ key a, ask answers = some (.look key a) → ∀ b, r ≠ .told (some (.ok b))) :
    ¬ Opened ask (answers ++ [r]) := by
  rintro ⟨before, after, key, a, bytes, e, ha⟩
  rcases List.eq_nil_or_concat after with rfl | ⟨rest, y, rfl⟩
  · obtain ⟨rfl, e2⟩ := List.append_inj' e rfl
    exact hr key a ha bytes (List.cons.inj e2).1
  · rw [List.concat_eq_append, ← List.cons_append, ← List.append_assoc] at e
    exact h ⟨before, rest, key, a, bytes, (List.append_inj' e rfl).1, ha⟩

theorem blinded_unopened (P : Prims) (c : CipherOf v L) (f : Tags v) (s : Side)
    (ask : List (Reply v L) → Option (Inquiry v)) (out : List (Reply v L)) (k : Nat) :
    ∀ (n o q m : Nat) (rng : Rng) (issued : List Item) (answers : List (Reply v L)),
      ¬ Opened ask answers → blinded P c f s ask k n o q m rng issued answers = .ok out →
      ¬ Opened ask out := by
  induction k with
  | zero =>
    intro n o q m rng issued answers h e
    cases e
    exact h
  | succ k ih =>
    intro n o q m rng issued answers h e
    rw [blinded] at e
    cases ha : ask answers with
    | none => rw [ha] at e; cases e; exact h
    | some a =>
      rw [ha] at e
      cases a with
      | hide a =>
        cases n with
        | zero => cases e; exact h
        | succ n =>
          dsimp only at e
          cases hr : a.what.run P ⟨a.key s⟩ s rng with
          | err x => rw [hr] at e; cases e
          | panic => rw [hr] at e; cases e
          | ok y =>
            rw [hr] at e
            refine ih _ _ _ _ _ _ _ (opened_snoc h fun key b hb => ?_) e
            rw [ha] at hb; cases hb
      | look key a =>
        cases o with
        | zero => cases e; exact h
        | succ o =>
          refine ih _ _ _ _ _ _ _ (opened_snoc h fun key b hb t => ?_) e
          intro ht
          exact blindAnswer_not_ok _ _ _ (Reply.told.inj ht)
      | cipher x =>
        cases q with
        | zero => cases e; exact h
        | succ q => exact ih _ _ _ _ _ _ _ (opened_snoc h fun key b hb t ht => by cases ht) e
      | mac x y =>
        cases m with
        | zero => cases e; exact h
        | succ m => exact ih _ _ _ _ _ _ _ (opened_snoc h fun key b hb t ht => by cases ht) e

/-- Hardly ever is anything opened that was not issued, although cipher and MAC can be computed. -/
theorem unopened (P : Prims) (K : Finset (BytesN 32)) (k n o q m : Nat)
    (ask : List (Reply v L) → Option (Inquiry v))
    (hhide : ∀ answers a, ask answers = some (.hide a) →
      a.what.Comparable P L ∧ (∀ s, a.key s ∈ K) ∧ a.what.Fits)
    (hlook : ∀ answers key a, ask answers = some (.look key a) → key ∈ K ∧ a.Fits) (s : Side) :
    ∃ X₀ : Finset (Bytes × Bytes), ∀ X, X₀ ⊆ X → ∀ d : Tags v,
      Known.chance (fun x : Known v n L X => ∃ answers, x.view P K d ask k o q m s = .ok answers ∧
          Opened ask answers) ≤
        n * (n - 1) / 2 ^ 257 + o / 2 ^ (8 * Spec.tagLen v) + (n + o) * m / 2 ^ 256 := by
  classical
  obtain ⟨X₀, h⟩ := differing_le P K n s ask (allowed hhide hlook) k o q m
  refine ⟨X₀, fun X hX d => ?_⟩
  have h := h X hX d
  have hc : (count fun x : Known v n L X => ∃ answers, x.view P K d ask k o q m s = .ok answers ∧
      Opened ask answers) ≤ differing P K n s ask k o q m X d := by
    refine count_mono ?_
    rintro x ⟨answers, e, ho⟩ he
    refine blinded_unopened _ _ _ _ ask answers k n o q m _ _ [] ?_ (he.symm.trans e) ho
    rintro ⟨before, after, key, a, bytes, e, -⟩
    simp at e
  have hc : ((count fun x : Known v n L X => ∃ answers, x.view P K d ask k o q m s = .ok answers ∧
      Opened ask answers : Nat) : ℚ) ≤ (differing P K n s ask k o q m X d : ℚ) := by exact_mod_cast hc
  unfold Known.chance
  rw [count_eq, div_le_iff₀ (Nat.cast_pos.2 (card_pos v n L X))]
  exact hc.trans h

/-- With up to `2 ^ 64` texts and `2 ^ 64` openings, `2 ^ 100` cipher keys and `2 ^ 100` MAC keys tried, the
chances differ by at most `2 ^ -89`. -/
theorem advantage_practical (P : Prims) (K : Finset (BytesN 32)) (k n o q m : Nat) (hn : n ≤ 2 ^ 64)
    (ho : o ≤ 2 ^ 64) (hq : q ≤ 2 ^ 100) (hm : m ≤ 2 ^ 100)
    (ask : List (Reply v L) → Option (Inquiry v))
    (hhide : ∀ answers a, ask answers = some (.hide a) →
      a.what.Comparable P L ∧ (∀ s, a.key s ∈ K) ∧ a.what.Fits)
    (hlook : ∀ answers key a, ask answers = some (.look key a) → key ∈ K ∧ a.Fits)
    (A : Res (List (Reply v L)) → Prop) :
    ∃ X₀ : Finset (Bytes × Bytes), ∀ X, X₀ ⊆ X → ∀ d : Tags v,
      |Known.chance (fun x : Known v n L X => A (x.view P K d ask k o q m .left)) -
          Known.chance (fun x : Known v n L X => A (x.view P K d ask k o q m .right))| ≤ 1 / 2 ^ 89 := by
  obtain ⟨X₀, h⟩ := advantage P K k n o q m ask hhide hlook A
  refine ⟨X₀, fun X hX d => (h X hX d).trans ?_⟩
  have h1 : (n : ℚ) ≤ 2 ^ 64 := by exact_mod_cast hn
  have h2 : (o : ℚ) ≤ 2 ^ 64 := by exact_mod_cast ho
  have h3 : (q : ℚ) ≤ 2 ^ 100 := by exact_mod_cast hq
  have h4 : (m : ℚ) ≤ 2 ^ 100 := by exact_mod_cast hm
  have n0 : (0 : ℚ) ≤ n := Nat.cast_nonneg n
  have o0 : (0 : ℚ) ≤ o := Nat.cast_nonneg o
  have q0 : (0 : ℚ) ≤ q := Nat.cast_nonneg q
  have m0 : (0 : ℚ) ≤ m := Nat.cast_nonneg m
  have ht : (2 : ℚ) ^ 256 ≤ 2 ^ (8 * Spec.tagLen v) := by
    refine pow_le_pow_right₀ (by norm_num) ?_
    cases v <;> decide
  have a1 : 2 * (o : ℚ) / 2 ^ (8 * Spec.tagLen v) ≤ 2 * o / 2 ^ 256 :=
    div_le_div_of_nonneg_left (by positivity) (by positivity) ht
  have b1 : (n : ℚ) * n ≤ 2 ^ 64 * 2 ^ 64 := mul_le_mul h1 h1 n0 (by positivity)
  have b2 : (n : ℚ) * q ≤ 2 ^ 64 * 2 ^ 100 := mul_le_mul h1 h3 q0 (by positivity)
  have b3 : ((n : ℚ) + o) * m ≤ (2 ^ 64 + 2 ^ 64) * 2 ^ 100 :=
    mul_le_mul (add_le_add h1 h2) h4 m0 (by positivity)
  have hs : 3 * ((n : ℚ) * (n - 1)) + n * q + 2 * o + 2 * (n + o) * m ≤ 2 ^ 167 := by
    have e : 3 * ((n : ℚ) * (n - 1)) + n * q + 2 * o + 2 * (n + o) * m =
      3 * (n * n) - 3 * n + n * q + 2 * o + 2 * ((n + o) * m) := by ring
    rw [e]
    clear h e a1 ht h3 h4
    norm_num at b1 b2 b3 h2 ⊢
    have h2 : (o : ℚ) ≤ 18446744073709551616 := by exact_mod_cast h2
    linarith
  have e : 3 * ((n : ℚ) * (n - 1)) / 2 ^ 256 + n * q / 2 ^ 256 + 2 * o / 2 ^ 256 +
      2 * (n + o) * m / 2 ^ 256 =
      (3 * (n * (n - 1)) + n * q + 2 * o + 2 * (n + o) * m) / 2 ^ 256 := by ring
  have h5 : 3 * ((n : ℚ) * (n - 1)) / 2 ^ 256 + n * q / 2 ^ 256 + 2 * o / 2 ^ 256 +
      2 * (n + o) * m / 2 ^ 256 ≤ 1 / 2 ^ 89 := by
    rw [e, div_le_div_iff₀ (by positivity) (by positivity)]
    refine (mul_le_mul_of_nonneg_right hs (by positivity)).trans (le_of_eq ?_)
    rw [one_mul, ← pow_add]
  linarith

/-! ### The game is played -/

/-- Nothing breaks the game off: with `k` requests and `k` of each kind allowed, there are `k` answers
unless nothing more is asked. -/
theorem runs (P : Prims) (K : Finset (BytesN 32)) (k n o q m : Nat) (hn : k ≤ n) (ho : k ≤ o) (hq : k ≤ q)
    (hm : k ≤ m) (ask : List (Reply v L) → Option (Inquiry v))
    (hhide : ∀ answers a, ask answers = some (.hide a) → a.what.Comparable P L ∧ ∀ s, a.key s ∈ K)
    (X : Finset (Bytes × Bytes)) (d : Tags v) (s : Side) (x : Known v n L X) :
    ∃ answers, x.view P K d ask k o q m s = .ok answers ∧
      (answers.length = k ∨ answers.length < k ∧ ask answers = none) := by
  have h : ∀ (k o q m : Nat) (ns : List (BytesN 32)) (issued : List Item) (answers : List (Reply v L)),
      k ≤ ns.length → k ≤ o → k ≤ q → k ≤ m →
      ∃ out, knowing (x.1.prims (P.withTags v (d.on X x.2)) K) x.1.2.2 (d.on X x.2) s ask k
        ns.length o q m (ns.map Subtype.val).flatten issued answers = .ok out ∧
        (out.length = answers.length + k ∨ out.length < answers.length + k ∧ ask out = none) := by
    intro k
    induction k with
    | zero => intro o q m ns issued answers _ _ _ _; exact ⟨answers, rfl, .inl rfl⟩
    | succ k ih =>
      intro o q m ns issued answers hn ho hq hm
      have step : ∀ {r : Reply v L} {out : List (Reply v L)},
          (out.length = (answers ++ [r]).length + k ∨
            out.length < (answers ++ [r]).length + k ∧ ask out = none) →
          (out.length = answers.length + (k + 1) ∨ out.length < answers.length + (k + 1) ∧ ask out = none) := by
        intro r out h2
        rw [List.length_append, List.length_singleton] at h2
        rcases h2 with h2 | ⟨h2, h3⟩
        · exact .inl (by omega)
        · exact .inr ⟨by omega, h3⟩
      cases ha : ask answers with
      | none => exact ⟨answers, by rw [knowing, ha], .inr ⟨by omega, ha⟩⟩
      | some a =>
        cases a with
        | hide a =>
          cases ns with
          | nil => simp at hn
          | cons b ns =>
            have hok : ∃ text, a.what.run (x.1.prims (P.withTags v (d.on X x.2)) K) ⟨a.key s⟩ s
                (b.1 ++ (ns.map Subtype.val).flatten) = .ok (text, (ns.map Subtype.val).flatten) := by
              obtain ⟨k, -, h⟩ := a.what.veilCore (P.withTags v (d.on X x.2))
                (comparable_tags _ _ (hhide _ _ ha).1)
              exact ⟨_, h K x.1.2.1 (x.1.2.2.ciphers _) s (a.key s) ((hhide _ _ ha).2 s) b _⟩
            obtain ⟨text, hok⟩ := hok
            obtain ⟨out, h1, h2⟩ := ih o q m ns (a.what.item text :: issued)
              (answers ++ [.told (some (.ok text))]) (by simpa using hn) (by omega) (by omega) (by omega)
            refine ⟨out, ?_, step h2⟩
            rw [List.map_cons, List.flatten_cons, List.length_cons, knowing, ha]
            dsimp only
            rw [hok]
            exact h1
        | look key a =>
          cases o with
          | zero => omega
          | succ o =>
            obtain ⟨out, h1, h2⟩ := ih o q m ns issued
              (answers ++ [.told (a.answer (x.1.prims (P.withTags v (d.on X x.2)) K) key issued)])
              (by omega) (by omega) (by omega) (by omega)
            exact ⟨out, by rw [knowing, ha]; exact h1, step h2⟩
        | cipher y =>
          cases q with
          | zero => omega
          | succ q =>
            obtain ⟨out, h1, h2⟩ := ih o q m ns issued (answers ++ [.cipher (x.1.2.2 y)])
              (by omega) (by omega) (by omega) (by omega)
            exact ⟨out, by rw [knowing, ha]; exact h1, step h2⟩
        | mac y z =>
          cases m with
          | zero => omega
          | succ m =>
            obtain ⟨out, h1, h2⟩ := ih o q m ns issued (answers ++ [.tag (d.on X x.2 (y, z))])
              (by omega) (by omega) (by omega) (by omega)
            exact ⟨out, by rw [knowing, ha]; exact h1, step h2⟩
  obtain ⟨out, h1, h2⟩ := h k o q m (List.ofFn x.1.1) [] [] (by rw [List.length_ofFn]; exact hn) ho hq hm
  rw [List.length_ofFn] at h1
  refine ⟨out, h1, ?_⟩
  simpa using h2

/-! ### A case -/

/-- Left, the first of two keys wraps zeros; right, the second wraps ones. A cipher key and a MAC key are
guessed, and a text made with them is handed in under both keys. -/
def forger (v : Ver) (a b guess : BytesN 32) (input : Bytes)
    (make : OneCipher v L → BytesN (Spec.tagLen v) → Bytes) : List (Reply v L) → Option (Inquiry v)
  | [] => some (.hide ⟨fun | .left => a | .right => b, .wrap .Local (C83.twoKeys v)⟩)
  | [_] => some (.cipher guess)
  | [_, .cipher _] => some (.mac guess.1 input)
  | [_, .cipher c, .tag t] => some (.look a (.unwrap .Local (make c t)))
  | [_, .cipher c, .tag t, _] => some (.look b (.unwrap .Local (make c t)))
  | _ => none

theorem forger_hides (P : Prims) (a b guess : BytesN 32) (input : Bytes)
    (make : OneCipher v L → BytesN (Spec.tagLen v) → Bytes) (hL : 32 ≤ L) (answers : List (Reply v L))
    (r : Veiling v) (h : forger v a b guess input make answers = some (.hide r)) :
    r.what.Comparable P L ∧ (∀ s, r.key s ∈ ({a, b} : Finset (BytesN 32))) ∧ r.what.Fits := by
  unfold forger at h
  split at h <;> cases h
  refine ⟨⟨fun s => ⟨⟨C83.twoKeys v s⟩, by cases v <;> rfl⟩, ?_⟩, fun s => by cases s <;> simp, trivial⟩
  cases v <;> exact hL

theorem forger_looks (a b guess : BytesN 32) (input : Bytes)
    (make : OneCipher v L → BytesN (Spec.tagLen v) → Bytes) (answers : List (Reply v L))
    (key : BytesN 32) (r : Opening v) (h : forger v a b guess input make answers = some (.look key r)) :
    key ∈ ({a, b} : Finset (BytesN 32)) ∧ r.Fits := by
  unfold forger at h
  split at h <;> cases h <;> exact ⟨by simp, trivial⟩

example (P : Prims) (a b guess : BytesN 32) (input : Bytes)
    (make : OneCipher v L → BytesN (Spec.tagLen v) → Bytes) (hL : 32 ≤ L)
    (A : Res (List (Reply v L)) → Prop) :
    ∃ X₀ : Finset (Bytes × Bytes), ∀ X, X₀ ⊆ X → ∀ d : Tags v,
      |Known.chance (fun x : Known v 1 L X =>
            A (x.view P {a, b} d (forger v a b guess input make) 5 2 1 1 .left)) -
          Known.chance (fun x : Known v 1 L X =>
            A (x.view P {a, b} d (forger v a b guess input make) 5 2 1 1 .right))| ≤ 1 / 2 ^ 89 :=
  advantage_practical P {a, b} 5 1 2 1 1 (by norm_num) (by norm_num) (by norm_num) (by norm_num) _
    (forger_hides P a b guess input make hL) (forger_looks a b guess input make) A

example (P : Prims) (a b guess : BytesN 32) (input : Bytes)
    (make : OneCipher v L → BytesN (Spec.tagLen v) → Bytes) (hL : 32 ≤ L) (s : Side) :
    ∃ X₀ : Finset (Bytes × Bytes), ∀ X, X₀ ⊆ X → ∀ d : Tags v,
      Known.chance (fun x : Known v 1 L X => ∃ answers,
          x.view P {a, b} d (forger v a b guess input make) 5 2 1 1 s = .ok answers ∧
            Opened (forger v a b guess input make) answers) ≤
        (1 : Nat) * ((1 : Nat) - 1) / 2 ^ 257 + (2 : Nat) / 2 ^ (8 * Spec.tagLen v) +
          ((1 : Nat) + (2 : Nat)) * (1 : Nat) / 2 ^ 256 :=
  unopened P {a, b} 5 1 2 1 1 _ (forger_hides P a b guess input make hL) (forger_looks a b guess input make) s

/-- All five requests are made. -/
example (P : Prims) (a b guess : BytesN 32) (input : Bytes)
    (make : OneCipher v L → BytesN (Spec.tagLen v) → Bytes) (hL : 32 ≤ L) (X : Finset (Bytes × Bytes))
    (d : Tags v) (s : Side) (x : Known v 5 L X) :
    ∃ answers, x.view P {a, b} d (forger v a b guess input make) 5 5 5 5 s = .ok answers ∧
      (answers.length = 5 ∨
        answers.length < 5 ∧ forger v a b guess input make answers = none) :=
  runs P {a, b} 5 5 5 5 5 (Nat.le_refl _) (Nat.le_refl _) (Nat.le_refl _) (Nat.le_refl _) _
    (fun answers r h => ⟨(forger_hides P a b guess input make hL answers r h).1,
      (forger_hides P a b guess input make hL answers r h).2.1⟩) X d s x

end Pasta.C100
