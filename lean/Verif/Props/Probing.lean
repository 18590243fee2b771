import Verif.Spec.Probing
import Verif.Props.Forging
import Verif.Props.Distinguish

/-!
# C83: telling which of two messages is in a token does not get easier by having texts opened

The bounds of C81 and C82 together.
-/

namespace Pasta.C83

open Spec (header Fits tokenText paserkText pieType pieTagged)
open C81 (Parts keyOf)
open C82 (other count count_eq count_prod count_prod')

variable {P : Prims} {v : Ver} {L : Nat}

/-! ### Exchanging the MAC and exchanging the rest -/

theorem tag_not_enc {m : Bytes} (h : isTagInput m = true) : encInput m = none := by
  unfold isTagInput at h
  rw [Bool.or_eq_true, beq_iff_eq, beq_iff_eq] at h
  rcases h with h | h
  · exact encInput_head h (by decide) (by decide)
  · exact encInput_head h (by decide) (by decide)

theorem tags_encKeys (P : Prims) (f : Tags v) (key : BytesN 32) (e : EncKeys) (iv : Ivs v) :
    (P.withTags v f).withEncKeys key v e iv = (P.withEncKeys key v e iv).withTags v f := by
  cases v with
  | V3 =>
    unfold Prims.withTags Prims.withEncKeys
    dsimp only
    congr 1
    funext k m
    cases h : isTagInput m with
    | true => simp [tag_not_enc h]; rfl
    | false => simp
  | V4 =>
    unfold Prims.withTags Prims.withEncKeys
    dsimp only
    congr 1
    funext n k m
    by_cases h : n = 32 ∧ isTagInput m = true
    · simp [tag_not_enc h.2, h]
    · simp [h]

theorem prims_tags {n : Nat} (P : Prims) (f : Tags v) (key : BytesN 32) (iv : Ivs v) (x : Ideal v n L) :
    x.prims (P.withTags v f) key iv = (x.prims P key iv).withTags v f := by
  unfold Ideal.prims
  rw [tags_encKeys]
  cases v <;> rfl

theorem comparable_tags (f : Tags v) (a : Hiding v) (h : a.Comparable P L) :
    a.Comparable (P.withTags v f) L := by
  cases a with
  | token => exact h
  | wrap k hidden =>
    refine ⟨fun s => ?_, h.2⟩
    obtain ⟨k0, h0⟩ := h.1 s
    have e := C81.fromBytes_tags (P := P) f k (hidden s)
    rw [h0, Res.ok_bind] at e
    obtain ⟨k1, h1, -⟩ := Res.bind_eq_ok.1 e
    exact ⟨k1, h1⟩

/-! ### Openings without a key -/

/-- What happens to a text with a wrong tag. -/
def blind : Opening v → Res Bytes
  | .decrypt _ F E iP _ iF text _ _ =>
    let _ := iP; let _ := iF
    match SecuredToken.parse v .Local F E text with
    | .ok t => if t.payload.length < 32 + tagSize v then .panic else .err .cryptoError
    | .err e => .err e
    | .panic => .panic
  | .unwrap k text =>
    match PieWrappedKey.parse v k text with
    | .ok _ => .err .cryptoError
    | .err e => .err e
    | .panic => .panic

theorem opening (P : Prims) (key : BytesN 32) (a : Opening v) (hfit : a.Fits) :
    (∀ f : Tags v, a.run (P.withTags v f) key = blind a) ∨
    ∃ (p : Parts v) (t : BytesN (Spec.tagLen v)), p.Fits ∧ a.item = some (p.item t) ∧
      ∀ f : Tags v, f (p.input P key) ≠ t → a.run (P.withTags v f) key = blind a := by
  cases a with
  | decrypt M F E iP iM iF text look i =>
    obtain ⟨h1, h2, h3⟩ := hfit
    have run_eq : ∀ f : Tags v,
        (Opening.decrypt M F E iP iM iF text look i).run (P.withTags v f) key =
        (SecuredToken.parse v .Local F E text >>= fun t =>
          t.decryptWithAssertions M (P.withTags v f) (keyOf P key f) i >>= fun r => .ok (look r)) :=
      fun f => rfl
    cases hp : SecuredToken.parse v .Local F E text with
    | err e => exact .inl fun f => by rw [run_eq, blind, hp]; rfl
    | panic => exact .inl fun f => by rw [run_eq, blind, hp]; rfl
    | ok tok =>
      have hpf := isToken_partsFit ((C05.parse_iff text tok).1 hp).1 h2 h3
      by_cases hs : tok.payload.length < 32 + tagSize v
      · left
        intro f
        rw [run_eq, blind, hp, Res.ok_bind, decrypt_short _ _ _ hs]
        dsimp only
        rw [if_pos hs]
        rfl
      · obtain ⟨n, c, g, hsp, hn, hg⟩ := payload_split v tok.payload (by omega)
        have hg' : g.length = Spec.tagLen v := by rw [hg]; cases v <;> rfl
        obtain ⟨f1, f2⟩ := fits_pieces hpf.message hsp
        refine .inr ⟨.token (Payload.suffix E) n c tok.encodedFooter i, ⟨g, hg'⟩,
          ⟨h1, f1, f2, hpf.footer, h3⟩, ?_, fun f hf => ?_⟩
        · show (match SecuredToken.parse v .Local F E text with
            | .ok t => some (Item.token t.display i)
            | _ => none) = _
          rw [hp]
          dsimp only
          rw [SecuredToken.display_eq, hsp]
          rfl
        · rw [run_eq, blind, hp, Res.ok_bind,
            decrypt_split tok (keyOf P key f) i n c g hsp hn hg, C81.localAuthKey_tags,
            localPreAuth_eq h1 f1 f2 hpf.footer h3, C81.localMac_tags _ _ _ rfl]
          dsimp only
          rw [if_neg hs, if_neg]
          · rfl
          · intro h
            exact hf (Subtype.ext h.symm)
  | unwrap k text =>
    have run_eq : ∀ f : Tags v, (Opening.unwrap k text).run (P.withTags v f) key =
        (PieWrappedKey.parse v k text >>= fun w => w.unwrapKey (P.withTags v f) (keyOf P key f) >>=
          fun key => .ok key.toBytes.1) := fun f => rfl
    cases hp : PieWrappedKey.parse v k text with
    | err e => exact .inl fun f => by rw [run_eq, blind, hp]; rfl
    | panic => exact .inl fun f => by rw [run_eq, blind, hp]; rfl
    | ok w =>
      refine .inr ⟨.pie k w.nonce w.wrappedKey, ⟨w.tag.1, pieTagLen_eq v ▸ w.tag.2⟩, trivial, ?_,
        fun f hf => ?_⟩
      · exact congrArg (fun t => some (Item.wrapped t)) (PieWrappedKey.parse_ok_iff.1 hp)
      · rw [run_eq, blind, hp, Res.ok_bind, PieWrappedKey.unwrapKey_eq]
        unfold Spec.pieTag
        rw [C81.pieAuthKey_tags, C81.mac_tags _ _ _ (C81.pieTagged_tag _ _ _ _), if_neg]
        · rfl
        · intro h
          exact hf (Subtype.ext h.symm)

/-! ### Texts made on request -/

/-- The request as one of the forging game. -/
def asked (s : Side) (rng : Rng) : Hiding v → Asked v
  | .token M F E iP iM iF encoding message footer i =>
    .encrypt M F E iP iM iF ⟨{ encoding := encoding s, message := message s, footer := footer }⟩ i rng
  | .wrap k hidden => .wrap k (hidden s) rng

theorem run_asked (P : Prims) (key : Key P v .Local) (s : Side) (rng : Rng) (a : Hiding v) :
    (asked s rng a).run P key = (a.run P key s rng >>= fun x => .ok x.1) := by
  cases a with
  | token M F E iP iM iF encoding message footer i =>
    unfold asked Asked.run Hiding.run
    rw [Res.bind_assoc']
    rfl
  | wrap k hidden =>
    unfold asked Asked.run Hiding.run
    simp only [Res.bind_assoc', Res.pure_def, Res.ok_bind]
    congr 1
    funext x
    congr 1
    funext w
    cases w.1.display <;> rfl

theorem hidden_text (P : Prims) (key : BytesN 32) (iv : Ivs v) {n : Nat} (x : Ideal v n L) (s : Side)
    (a : Hiding v) (ha : a.Comparable P L) (hfit : a.Fits) (b : BytesN 32) (rest : Rng) :
    (∃ text, ∀ f : Tags v, a.run ((x.prims P key iv).withTags v f) ⟨key⟩ s (b.1 ++ rest) =
      .ok (text, rest)) ∨
    ∃ p : Parts v, p.Fits ∧ (∀ f : Tags v,
        a.run ((x.prims P key iv).withTags v f) ⟨key⟩ s (b.1 ++ rest) =
          .ok (p.text (f (p.input (x.prims P key iv) key)), rest)) ∧
      ∀ t, a.item (p.text t) = p.item t := by
  have hok : ∀ f : Tags v, ∃ text, a.run ((x.prims P key iv).withTags v f) ⟨key⟩ s (b.1 ++ rest) =
      .ok (text, rest) := by
    intro f
    obtain ⟨k, -, h⟩ := a.core (P.withTags v f) key iv (comparable_tags f a ha)
    have := h x.2.1 (x.2.2.ciphers (P.withTags v f)) s b rest
    rw [← prims_tags]
    exact ⟨_, this⟩
  have hf : (asked s (b.1 ++ rest) a).Fits := by
    cases a with
    | token => exact ⟨hfit.1, hfit.2.1, hfit.2.2.1 s, hfit.2.2.2⟩
    | wrap => trivial
  have hna : (asked s (b.1 ++ rest) a).isAttempt = false := by cases a <;> rfl
  rcases C81.issue (x.prims P key iv) key _ hf hna with ⟨r, hr⟩ | ⟨p, hp, hr, hi⟩
  · left
    obtain ⟨text, h⟩ := hok (fun _ => ⟨List.replicate _ 0, List.length_replicate⟩)
    refine ⟨text, fun f => ?_⟩
    obtain ⟨text', h'⟩ := hok f
    have e1 := hr f
    have e2 := hr (fun _ => ⟨List.replicate _ 0, List.length_replicate⟩)
    rw [run_asked, h, Res.ok_bind] at e2
    rw [run_asked, h', Res.ok_bind, ← e2] at e1
    cases e1
    exact h'
  · right
    refine ⟨p, hp, fun f => ?_, fun t => ?_⟩
    · obtain ⟨text, h⟩ := hok f
      have e := hr f
      rw [run_asked, h, Res.ok_bind] at e
      cases e
      exact h
    · have := hi t
      cases a with
      | token => exact Option.some.inj this
      | wrap => exact Option.some.inj this

/-! ### The game with blind openings -/

/-- The answer to an opening without a key. -/
def blindAnswer (issued : List Item) (a : Opening v) : Told :=
  match a.item with
  | some i => if i ∈ issued then none else some (blind a)
  | none => some (blind a)

/-- The game where every opening is answered like this. -/
def blinded (P : Prims) (key : BytesN 32) (s : Side) (ask : List Told → Option (Probe v)) :
    (k n q : Nat) → Rng → List Item → List Told → Res (List Told)
  | 0, _, _, _, _, answers => .ok answers
  | k + 1, n, q, rng, issued, answers =>
    match ask answers with
    | none => .ok answers
    | some (.hide a) =>
      match n with
      | 0 => .ok answers
      | n + 1 => do
        let (text, rng) ← a.run P ⟨key⟩ s rng
        blinded P key s ask k n q rng (a.item text :: issued) (answers ++ [some (.ok text)])
    | some (.look a) =>
      match q with
      | 0 => .ok answers
      | q + 1 => blinded P key s ask k n q rng issued (answers ++ [blindAnswer issued a])

/-- What the requests have to keep to. -/
def Allowed (P : Prims) (L : Nat) (ask : List Told → Option (Probe v)) : Prop :=
  ∀ answers, match ask answers with
    | some (.hide a) => a.Comparable P L ∧ a.Fits
    | some (.look a) => a.Fits
    | none => True

/-- The points asked for are those of issued items. -/
def Known (Q : Prims) (key : BytesN 32) (f : Tags v) (issued : List Item) (S : Finset (Bytes × Bytes)) :
    Prop :=
  ∀ x ∈ S, ∃ p : Parts v, p.Fits ∧ x = p.input Q key ∧ p.item (f x) ∈ issued

/-- The two games differ only if a tag is guessed. -/
theorem strategy (P : Prims) (key : BytesN 32) (iv : Ivs v) {n : Nat} (x : Ideal v n L) (s : Side)
    (ask : List Told → Option (Probe v)) (hask : Allowed P L ask) :
    ∀ (k q : Nat) (ns : List (BytesN 32)) (issued : List Item) (answers : List Told),
    ∃ t : Guess (Bytes × Bytes) (BytesN (Spec.tagLen v)), t.AtMost q ∧
      ∀ (f : Tags v) (S : Finset (Bytes × Bytes)), Known (x.prims P key iv) key f issued S →
        probing ((x.prims P key iv).withTags v f) key s ask k ns.length q
            (ns.map Subtype.val).flatten issued answers ≠
          blinded ((x.prims P key iv).withTags v f) key s ask k ns.length q
            (ns.map Subtype.val).flatten issued answers →
        t.Wins f S := by
  intro k
  induction k with
  | zero => intro q ns issued answers; exact ⟨.stop, trivial, fun f S _ h => h rfl⟩
  | succ k ih =>
    intro q ns issued answers
    have hall := hask answers
    cases hq : ask answers with
    | none =>
      refine ⟨.stop, trivial, fun f S _ h => h ?_⟩
      unfold probing blinded
      rw [hq]
    | some a =>
      rw [hq] at hall
      cases a with
      | hide a =>
        cases ns with
        | nil =>
          refine ⟨.stop, trivial, fun f S _ h => h ?_⟩
          unfold probing blinded
          rw [hq]
          rfl
        | cons b ns =>
          have hstep : ∀ (f : Tags v) text, a.run ((x.prims P key iv).withTags v f) ⟨key⟩ s
              (b.1 ++ (ns.map Subtype.val).flatten) = .ok (text, (ns.map Subtype.val).flatten) →
              probing ((x.prims P key iv).withTags v f) key s ask (k + 1) (b :: ns).length q
                  ((b :: ns).map Subtype.val).flatten issued answers =
                probing ((x.prims P key iv).withTags v f) key s ask k ns.length q
                  (ns.map Subtype.val).flatten (a.item text :: issued)
                  (answers ++ [some (.ok text)]) ∧
              blinded ((x.prims P key iv).withTags v f) key s ask (k + 1) (b :: ns).length q
                  ((b :: ns).map Subtype.val).flatten issued answers =
                blinded ((x.prims P key iv).withTags v f) key s ask k ns.length q
                  (ns.map Subtype.val).flatten (a.item text :: issued)
                  (answers ++ [some (.ok text)]) := by
            intro f text h
            rw [List.map_cons, List.flatten_cons, List.length_cons]
            constructor
            · rw [probing, hq]
              dsimp only
              rw [h]
              rfl
            · rw [blinded, hq]
              dsimp only
              rw [h]
              rfl
          rcases hidden_text P key iv x s a hall.1 hall.2 b (ns.map Subtype.val).flatten with
            ⟨text, hr⟩ | ⟨p, hp, hr, hi⟩
          · obtain ⟨t, ht, hw⟩ := ih q ns (a.item text :: issued) (answers ++ [some (.ok text)])
            refine ⟨t, ht, fun f S hk h => hw f S (fun y hy => ?_) ?_⟩
            · obtain ⟨p, h1, h2, h3⟩ := hk y hy
              exact ⟨p, h1, h2, List.mem_cons_of_mem _ h3⟩
            · obtain ⟨e1, e2⟩ := hstep f text (hr f)
              rwa [e1, e2] at h
          · have h := fun t => ih q ns (a.item (p.text t) :: issued) (answers ++ [some (.ok (p.text t))])
            choose t ht hw using h
            refine ⟨.look (p.input (x.prims P key iv) key) t, ht, fun f S hk h => hw _ f _ ?_ ?_⟩
            · intro y hy
              rcases Finset.mem_insert.1 hy with rfl | hy
              · exact ⟨p, hp, rfl, by rw [hi]; exact List.mem_cons_self⟩
              · obtain ⟨p, h1, h2, h3⟩ := hk y hy
                exact ⟨p, h1, h2, List.mem_cons_of_mem _ h3⟩
            · obtain ⟨e1, e2⟩ := hstep f _ (hr f)
              rwa [e1, e2] at h
      | look a =>
        cases q with
        | zero =>
          refine ⟨.stop, trivial, fun f S _ h => h ?_⟩
          unfold probing blinded
          rw [hq]
        | succ q =>
          obtain ⟨t, ht, hw⟩ := ih q ns issued (answers ++ [blindAnswer issued a])
          have hstep : ∀ f : Tags v,
              a.answer ((x.prims P key iv).withTags v f) key issued = blindAnswer issued a →
              probing ((x.prims P key iv).withTags v f) key s ask (k + 1) ns.length (q + 1)
                  (ns.map Subtype.val).flatten issued answers =
                probing ((x.prims P key iv).withTags v f) key s ask k ns.length q
                  (ns.map Subtype.val).flatten issued (answers ++ [blindAnswer issued a]) ∧
              blinded ((x.prims P key iv).withTags v f) key s ask (k + 1) ns.length (q + 1)
                  (ns.map Subtype.val).flatten issued answers =
                blinded ((x.prims P key iv).withTags v f) key s ask k ns.length q
                  (ns.map Subtype.val).flatten issued (answers ++ [blindAnswer issued a]) := by
            intro f h
            constructor
            · rw [probing, hq]
              dsimp only
              rw [h]
            · rw [blinded, hq]
          rcases opening (x.prims P key iv) key a hall with hr | ⟨p, g, hp, hit, hr⟩
          · refine ⟨t, C81.atMost_mono t (Nat.le_succ q) ht, fun f S hk h => hw f S hk ?_⟩
            obtain ⟨e1, e2⟩ := hstep f (by unfold Opening.answer blindAnswer; rw [hr f]; cases a.item <;> rfl)
            rwa [e1, e2] at h
          · by_cases hin : p.item g ∈ issued
            · refine ⟨t, C81.atMost_mono t (Nat.le_succ q) ht, fun f S hk h => hw f S hk ?_⟩
              obtain ⟨e1, e2⟩ := hstep f (by
                unfold Opening.answer blindAnswer; rw [hit]; dsimp only; rw [if_pos hin, if_pos hin])
              rwa [e1, e2] at h
            · refine ⟨.guess (p.input (x.prims P key iv) key) g fun _ => t, ⟨q, rfl, fun _ => ht⟩,
                fun f S hk h => ?_⟩
              by_cases hg : f (p.input (x.prims P key iv) key) = g
              · refine .inl ⟨fun hS => ?_, hg⟩
                obtain ⟨p', hp', hx, hin'⟩ := hk _ hS
                rw [← Parts.input_inj hp hp' hx, hg] at hin'
                exact hin hin'
              · refine .inr (hw f S hk ?_)
                obtain ⟨e1, e2⟩ := hstep f (by unfold Opening.answer blindAnswer; rw [hr f hg]; cases a.item <;> rfl)
                rwa [e1, e2] at h

/-! ### The game with blind openings is one without openings -/

/-- The answers when the texts made are these, and what is to be hidden next. -/
def drive (ask : List Told → Option (Probe v)) :
    (k n q : Nat) → List Item → List Told → List Bytes → List Told × Option (Hiding v)
  | 0, _, _, _, answers, _ => (answers, none)
  | k + 1, n, q, issued, answers, texts =>
    match ask answers with
    | none => (answers, none)
    | some (.hide a) =>
      match n, texts with
      | 0, _ => (answers, none)
      | _ + 1, [] => (answers, some a)
      | n + 1, text :: texts =>
        drive ask k n q (a.item text :: issued) (answers ++ [some (.ok text)]) texts
    | some (.look a) =>
      match q with
      | 0 => (answers, none)
      | q + 1 => drive ask k n q issued (answers ++ [blindAnswer issued a]) texts

theorem drive_comparable {P : Prims} {ask : List Told → Option (Probe v)} (hask : Allowed P L ask) :
    ∀ k n q issued answers texts a, (drive ask k n q issued answers texts).2 = some a →
      a.Comparable P L := by
  intro k
  induction k with
  | zero => intro n q issued answers texts a h; cases h
  | succ k ih =>
    intro n q issued answers texts a h
    have hall := hask answers
    unfold drive at h
    cases hq : ask answers with
    | none => rw [hq] at h; cases h
    | some r =>
      rw [hq] at h hall
      cases r with
      | hide b =>
        cases n with
        | zero => cases h
        | succ n =>
          cases texts with
          | nil => cases h; exact hall.1
          | cons t ts => exact ih _ _ _ _ _ _ h
      | look b =>
        cases q with
        | zero => cases h
        | succ q => exact ih _ _ _ _ _ _ h

theorem blinded_eq (P : Prims) (key : BytesN 32) (s : Side) (ask : List Told → Option (Probe v))
    (k₀ n₀ q₀ : Nat) : ∀ k n q rng issued answers texts,
      (∀ ts, drive ask k₀ n₀ q₀ [] [] (texts ++ ts) = drive ask k n q issued answers ts) →
      blinded P key s ask k n q rng issued answers =
        (hidingGame P ⟨key⟩ s (fun ts => (drive ask k₀ n₀ q₀ [] [] ts).2) n rng texts >>= fun ts =>
          .ok (drive ask k₀ n₀ q₀ [] [] ts).1) := by
  intro k
  induction k with
  | zero =>
    intro n q rng issued answers texts h
    have h0 := h []
    rw [List.append_nil] at h0
    cases n with
    | zero => simp [blinded, hidingGame, h0, drive]
    | succ n => simp [blinded, hidingGame, h0, drive]
  | succ k ih =>
    intro n q rng issued answers texts h
    have h0 := h []
    rw [List.append_nil] at h0
    have stop : drive ask (k + 1) n q issued answers [] = (answers, none) →
        (.ok answers : Res (List Told)) =
          (hidingGame P ⟨key⟩ s (fun ts => (drive ask k₀ n₀ q₀ [] [] ts).2) n rng texts >>= fun ts =>
            .ok (drive ask k₀ n₀ q₀ [] [] ts).1) := by
      intro h1
      rw [h1] at h0
      cases n with
      | zero => simp [hidingGame, h0]
      | succ n => simp [hidingGame, h0]
    cases hq : ask answers with
    | none =>
      rw [← stop (by rw [drive, hq]), blinded, hq]
    | some r =>
      cases r with
      | hide a =>
        cases n with
        | zero => rw [← stop (by rw [drive, hq]), blinded, hq]
        | succ n =>
          rw [show drive ask (k + 1) (n + 1) q issued answers [] = (answers, some a) by
            rw [drive, hq]] at h0
          rw [blinded, hq, hidingGame]
          dsimp only
          rw [h0]
          dsimp only
          rw [Res.bind_assoc']
          congr 1
          funext r
          refine ih n q r.2 _ _ (texts ++ [r.1]) fun ts => ?_
          rw [List.append_assoc, h]
          rw [List.singleton_append, drive, hq]
      | look a =>
        cases q with
        | zero => rw [← stop (by rw [drive, hq]), blinded, hq]
        | succ q =>
          rw [blinded, hq]
          dsimp only
          refine ih n q rng _ _ texts fun ts => ?_
          rw [h, drive, hq]

/-! ### The bound -/

/-- The same with blind openings. -/
def blindView (P : Prims) {n : Nat} {X : Finset (Bytes × Bytes)} (key : BytesN 32)
    (iv : Ivs v) (d : Tags v) (ask : List Told → Option (Probe v)) (k q : Nat) (s : Side)
    (x : Ideal' v n L X) : Res (List Told) :=
  blinded (x.1.prims (P.withTags v (d.on X x.2)) key iv) key s ask k n q x.1.1.tape [] []

theorem count_mono {α : Type} [Fintype α] {A B : α → Prop} (h : ∀ a, A a → B a) : count A ≤ count B := by
  classical
  exact Finset.card_le_card (Finset.monotone_filter_right _ fun a _ => h a)

theorem count_or {α : Type} [Fintype α] (A B : α → Prop) :
    count (fun a => A a ∨ B a) ≤ count A + count B := by
  classical
  unfold count
  refine le_trans (Finset.card_le_card fun a ha => ?_) (Finset.card_union_le _ _)
  simp only [Finset.mem_filter, Finset.mem_univ, true_and, Finset.mem_union] at ha ⊢
  exact ha

theorem card_ideal (n : Nat) (X : Finset (Bytes × Bytes)) : Fintype.card (Ideal' v n L X) =
    Fintype.card (Ideal v n L) * Fintype.card (X → BytesN (Spec.tagLen v)) := Fintype.card_prod _ _

theorem combine (a b a' b' l r N n q R T : Nat) (hR : 0 < R) (hT : 0 < T) (hN : 0 < N)
    (l1 : a ≤ a' + l) (l2 : a' ≤ a + l) (r1 : b ≤ b' + r) (r2 : b' ≤ b + r)
    (h1 : a' * R ≤ b' * R + n * (n - 1) * N) (h2 : b' * R ≤ a' * R + n * (n - 1) * N)
    (d1 : l * T ≤ q * N) (d2 : r * T ≤ q * N) {R' T' : ℚ} (hR' : R' = R) (hT' : T' = T) :
    |(a : ℚ) / N - b / N| ≤ n * (n - 1) / R' + 2 * q / T' := by
  subst hR' hT'
  have hn : ((n * (n - 1) : Nat) : ℚ) = (n : ℚ) * (n - 1) := by
    cases n with
    | zero => simp
    | succ n => push_cast; simp
  have hR : (0 : ℚ) < R := by exact_mod_cast hR
  have hT : (0 : ℚ) < T := by exact_mod_cast hT
  have hN : (0 : ℚ) < N := by exact_mod_cast hN
  have l1 : (a : ℚ) ≤ a' + l := by exact_mod_cast l1
  have l2 : (a' : ℚ) ≤ a + l := by exact_mod_cast l2
  have r1 : (b : ℚ) ≤ b' + r := by exact_mod_cast r1
  have r2 : (b' : ℚ) ≤ b + r := by exact_mod_cast r2
  have h1 : (a' : ℚ) ≤ b' + n * (n - 1) / R * N := by
    have h : (a' : ℚ) * R ≤ b' * R + n * (n - 1) * N := by rw [← hn]; exact_mod_cast h1
    rw [← mul_le_mul_iff_left₀ hR]
    have e : (b' + (n : ℚ) * (n - 1) / R * N) * R = b' * R + n * (n - 1) * N := by field_simp
    rw [e]; exact h
  have h2 : (b' : ℚ) ≤ a' + n * (n - 1) / R * N := by
    have h : (b' : ℚ) * R ≤ a' * R + n * (n - 1) * N := by rw [← hn]; exact_mod_cast h2
    rw [← mul_le_mul_iff_left₀ hR]
    have e : (a' + (n : ℚ) * (n - 1) / R * N) * R = a' * R + n * (n - 1) * N := by field_simp
    rw [e]; exact h
  have d1 : (l : ℚ) ≤ q / T * N := by
    have h : (l : ℚ) * T ≤ q * N := by exact_mod_cast d1
    rw [div_mul_eq_mul_div, le_div_iff₀ hT]; exact h
  have d2 : (r : ℚ) ≤ q / T * N := by
    have h : (r : ℚ) * T ≤ q * N := by exact_mod_cast d2
    rw [div_mul_eq_mul_div, le_div_iff₀ hT]; exact h
  have e : (n * (n - 1) / (R : ℚ) + 2 * q / T) = (n * (n - 1) / R * N + 2 * (q / T * N)) / N := by
    field_simp
  rw [← sub_div, abs_div, abs_of_pos hN, e, div_le_div_iff_of_pos_right hN, abs_le]
  constructor <;> linarith

/-- The two views seldom differ. -/
theorem differ (P : Prims) (key : BytesN 32) (iv : Ivs v) (n : Nat) (s : Side)
    (ask : List Told → Option (Probe v)) (hask : Allowed P L ask) (k q : Nat) :
    ∃ X₀ : Finset (Bytes × Bytes), ∀ X, X₀ ⊆ X → ∀ d : Tags v,
      count (fun x : Ideal' v n L X => x.view P key iv d ask k q s ≠ blindView P key iv d ask k q s x) *
        2 ^ (8 * Spec.tagLen v) ≤ q * Fintype.card (Ideal' v n L X) := by
  classical
  have h := fun x : Ideal v n L => strategy P key iv x s ask hask k q (List.ofFn x.1) [] []
  choose t ht hw using h
  refine ⟨Finset.univ.biUnion fun x => (t x).points, fun X hX d => ?_⟩
  rw [count_prod, Finset.sum_mul]
  refine le_trans (Finset.sum_le_sum fun x _ => ?_)
    (b := ∑ _x : Ideal v n L, q * Fintype.card (X → BytesN (Spec.tagLen v))) ?_
  · have h := Guess.card_wins_all d X (t x) q (ht x)
      (fun y hy => hX (Finset.mem_biUnion.2 ⟨x, Finset.mem_univ _, hy⟩))
    rw [C81.card_tags, count_eq] at h
    refine le_trans (Nat.mul_le_mul_right _ (count_mono fun g hg => ?_)) h
    refine hw x (Guess.ext d X g) ∅ (fun y hy => absurd hy (Finset.notMem_empty y)) ?_
    unfold Ideal'.view blindView at hg
    rw [prims_tags] at hg
    rw [List.length_ofFn]
    exact hg
  · rw [Finset.sum_const, Finset.card_univ, Nat.nsmul_eq_mul, card_ideal]
    exact le_of_eq (by ring)

theorem blind_sides (P : Prims) (key : BytesN 32) (iv : Ivs v) (n : Nat) (s : Side)
    (ask : List Told → Option (Probe v)) (hask : Allowed P L ask) (k q : Nat)
    (X : Finset (Bytes × Bytes)) (d : Tags v) (D : Res (List Told) → Prop) :
    count (fun x : Ideal' v n L X => D (blindView P key iv d ask k q s x)) * 2 ^ 256 ≤
      count (fun x : Ideal' v n L X => D (blindView P key iv d ask k q (other s) x)) * 2 ^ 256 +
        n * (n - 1) * Fintype.card (Ideal' v n L X) := by
  classical
  rw [count_prod', count_prod', Finset.sum_mul, Finset.sum_mul]
  have e : n * (n - 1) * Fintype.card (Ideal' v n L X) =
      ∑ _g : X → BytesN (Spec.tagLen v), n * (n - 1) * Fintype.card (Ideal v n L) := by
    rw [Finset.sum_const, Finset.card_univ, Nat.nsmul_eq_mul, card_ideal]
    ring
  rw [e, ← Finset.sum_add_distrib]
  refine Finset.sum_le_sum fun g _ => ?_
  have h := C82.one_side (P.withTags v (d.on X g)) key iv n
    (fun ts => (drive ask k n q [] [] ts).2)
    (fun texts a ha => comparable_tags _ a (drive_comparable hask _ _ _ _ _ _ _ ha))
    (fun r => D (r >>= fun ts => .ok (drive ask k n q [] [] ts).1)) s
  rw [count_eq, count_eq] at h
  have hv : ∀ s (x : Ideal v n L), blindView P key iv d ask k q s (x, g) =
      (x.view (P.withTags v (d.on X g)) key iv (fun ts => (drive ask k n q [] [] ts).2) s >>= fun ts =>
        .ok (drive ask k n q [] [] ts).1) := by
    intro s x
    exact blinded_eq _ key s ask k n q k n q _ [] [] [] (fun ts => rfl)
  simp only [hv]
  exact h

/-- Whatever is asked for, whatever is handed in and whatever is concluded from the answers: the
conclusion is drawn (almost) as often when the left candidates are used as when the right ones are. -/
theorem advantage (P : Prims) (key : BytesN 32) (iv : Ivs v) (k n q : Nat)
    (ask : List Told → Option (Probe v))
    (hhide : ∀ answers a, ask answers = some (.hide a) → a.Comparable P L ∧ a.Fits)
    (hlook : ∀ answers a, ask answers = some (.look a) → a.Fits)
    (D : Res (List Told) → Prop) :
    ∃ X₀ : Finset (Bytes × Bytes), ∀ X, X₀ ⊆ X → ∀ d : Tags v,
      |Ideal'.chance (fun x : Ideal' v n L X => D (x.view P key iv d ask k q .left)) -
          Ideal'.chance (fun x : Ideal' v n L X => D (x.view P key iv d ask k q .right))| ≤
        n * (n - 1) / 2 ^ 256 + 2 * q / 2 ^ (8 * Spec.tagLen v) := by
  classical
  have hask : Allowed P L ask := by
    intro answers
    cases h : ask answers with
    | none => trivial
    | some a =>
      cases a with
      | hide a => exact hhide _ _ h
      | look a => exact hlook _ _ h
  obtain ⟨X₁, h₁⟩ := differ P key iv n .left ask hask k q
  obtain ⟨X₂, h₂⟩ := differ P key iv n .right ask hask k q
  refine ⟨X₁ ∪ X₂, fun X hX d => ?_⟩
  have d1 := h₁ X (fun x hx => hX (Finset.mem_union_left _ hx)) d
  have d2 := h₂ X (fun x hx => hX (Finset.mem_union_right _ hx)) d
  have b1 := blind_sides P key iv n .left ask hask k q X d D
  have b2 := blind_sides P key iv n .right ask hask k q X d D
  simp only [other] at b1 b2
  have hor : ∀ s, count (fun x : Ideal' v n L X => D (x.view P key iv d ask k q s)) ≤
      count (fun x : Ideal' v n L X => D (blindView P key iv d ask k q s x)) +
        count (fun x : Ideal' v n L X =>
          x.view P key iv d ask k q s ≠ blindView P key iv d ask k q s x) := by
    intro s
    refine le_trans (count_mono fun x hx => ?_) (count_or _ _)
    by_cases h : x.view P key iv d ask k q s = blindView P key iv d ask k q s x
    · rw [h] at hx; exact .inl hx
    · exact .inr h
  have hro : ∀ s, count (fun x : Ideal' v n L X => D (blindView P key iv d ask k q s x)) ≤
      count (fun x : Ideal' v n L X => D (x.view P key iv d ask k q s)) +
        count (fun x : Ideal' v n L X =>
          x.view P key iv d ask k q s ≠ blindView P key iv d ask k q s x) := by
    intro s
    refine le_trans (count_mono fun x hx => ?_) (count_or _ _)
    by_cases h : x.view P key iv d ask k q s = blindView P key iv d ask k q s x
    · rw [← h] at hx; exact .inl hx
    · exact .inr h
  have hN : 0 < Fintype.card (Ideal' v n L X) := by
    rw [card_ideal]
    exact Nat.mul_pos (C82.card_pos v n L) (Fintype.card_pos_iff.2 ⟨fun x => d x.1⟩)
  have l1 := hor .left
  have l2 := hro .left
  have r1 := hor .right
  have r2 := hro .right
  unfold Ideal'.chance
  rw [count_eq, count_eq]
  exact combine _ _ _ _ _ _ _ n q _ _ (Nat.two_pow_pos 256) (Nat.two_pow_pos _) hN l1 l2 r1 r2 b1 b2
    d1 d2 (by rw [Nat.cast_pow, Nat.cast_ofNat]) (by rw [Nat.cast_pow, Nat.cast_ofNat])

/-! ### The game is played -/

/-- Nothing breaks the game off: with `k` requests and `k` of each kind allowed, there are `k` answers
unless nothing more is asked. -/
theorem runs (P : Prims) (key : BytesN 32) (iv : Ivs v) (k n q : Nat) (hn : k ≤ n) (hq : k ≤ q)
    (ask : List Told → Option (Probe v))
    (hhide : ∀ answers a, ask answers = some (.hide a) → a.Comparable P L ∧ a.Fits)
    (X : Finset (Bytes × Bytes)) (d : Tags v) (s : Side) (x : Ideal' v n L X) :
    ∃ answers, x.view P key iv d ask k q s = .ok answers ∧
      (answers.length = k ∨ answers.length < k ∧ ask answers = none) := by
  have h : ∀ (k q : Nat) (ns : List (BytesN 32)) (issued : List Item) (answers : List Told),
      k ≤ ns.length → k ≤ q → ∃ out, probing (x.1.prims (P.withTags v (d.on X x.2)) key iv) key s ask k
        ns.length q (ns.map Subtype.val).flatten issued answers = .ok out ∧
        (out.length = answers.length + k ∨ out.length < answers.length + k ∧ ask out = none) := by
    intro k
    induction k with
    | zero => intro q ns issued answers _ _; exact ⟨answers, rfl, .inl rfl⟩
    | succ k ih =>
      intro q ns issued answers hn hq
      cases ha : ask answers with
      | none => exact ⟨answers, by rw [probing, ha], .inr ⟨by omega, ha⟩⟩
      | some a =>
        cases a with
        | hide a =>
          cases ns with
          | nil => simp at hn
          | cons b ns =>
            have hok : ∃ text, a.run (x.1.prims (P.withTags v (d.on X x.2)) key iv) ⟨key⟩ s
                (b.1 ++ (ns.map Subtype.val).flatten) = .ok (text, (ns.map Subtype.val).flatten) := by
              obtain ⟨k, -, h⟩ := a.core (P.withTags v (d.on X x.2)) key iv
                (comparable_tags _ a (hhide _ _ ha).1)
              exact ⟨_, h x.1.2.1 (x.1.2.2.ciphers _) s b _⟩
            obtain ⟨text, hok⟩ := hok
            obtain ⟨out, h1, h2⟩ := ih q ns (a.item text :: issued) (answers ++ [some (.ok text)])
              (by simpa using hn) (by omega)
            refine ⟨out, ?_, ?_⟩
            · rw [List.map_cons, List.flatten_cons, List.length_cons, probing, ha]
              dsimp only
              rw [hok]
              exact h1
            · rw [List.length_append, List.length_singleton] at h2
              rcases h2 with h2 | ⟨h2, h3⟩
              · exact .inl (by omega)
              · exact .inr ⟨by omega, h3⟩
        | look a =>
          cases q with
          | zero => omega
          | succ q =>
            obtain ⟨out, h1, h2⟩ := ih q ns issued
              (answers ++ [a.answer (x.1.prims (P.withTags v (d.on X x.2)) key iv) key issued])
              (by omega) (by omega)
            refine ⟨out, ?_, ?_⟩
            · rw [probing, ha]
              exact h1
            · rw [List.length_append, List.length_singleton] at h2
              rcases h2 with h2 | ⟨h2, h3⟩
              · exact .inl (by omega)
              · exact .inr ⟨by omega, h3⟩
  obtain ⟨out, h1, h2⟩ := h k q (List.ofFn x.1.1) [] [] (by rw [List.length_ofFn]; exact hn) hq
  rw [List.length_ofFn] at h1
  refine ⟨out, h1, ?_⟩
  simpa using h2

/-- If issued texts were opened, there would be nothing left to guess: a wrapped key opens to the
candidate that was used. -/
theorem issued_tells (Q : Prims) (key : BytesN 32) (s : Side)
    (hidden : Side → BytesN (keyLen v WKind.Local.kind)) (rng rng' : Rng) (text : Bytes)
    (h : (Hiding.wrap .Local hidden).run Q ⟨key⟩ s rng = .ok (text, rng')) :
    (Opening.unwrap .Local text : Opening v).run Q key = .ok (hidden s).1 := by
  unfold Hiding.run at h
  dsimp only at h
  have hk : Key.fromBytes Q v WKind.Local.kind (hidden s) = .ok ⟨hidden s⟩ := by cases v <;> rfl
  rw [hk, Res.ok_bind, Res.bind_eq_ok] at h
  obtain ⟨⟨w, r⟩, h1, h2⟩ := h
  obtain ⟨_, h3, h4⟩ := (Key.wrapPie_ok_iff _ _ rng r w).1 h1
  rw [PieWrappedKey.display_eq, Res.ok_bind] at h2
  cases h2
  unfold Opening.run
  dsimp only
  rw [PieWrappedKey.parse_ok_iff.2 rfl, Res.ok_bind, PieWrappedKey.unwrapKey_eq, if_pos h4, h3,
    applyKeystreamN_twice]
  cases v <;> rfl

/-- Two keys to choose from. -/
def twoKeys (v : Ver) : Side → BytesN (keyLen v WKind.Local.kind)
  | .left => ⟨List.replicate _ 0, List.length_replicate⟩
  | .right => ⟨List.replicate _ 1, List.length_replicate⟩

/-- Someone who has one of them wrapped, hands in the result, and then something else. -/
def prober (v : Ver) : List Told → Option (Probe v)
  | [] => some (.hide (.wrap .Local (twoKeys v)))
  | [some (.ok text)] => some (.look (.unwrap .Local text))
  | [some (.ok text), _] => some (.look (.unwrap .Local (0 :: text)))
  | _ => none

theorem prober_hides (P : Prims) (hL : 32 ≤ L) (answers : List Told) (a : Hiding v)
    (h : prober v answers = some (.hide a)) : a.Comparable P L ∧ a.Fits := by
  unfold prober at h
  split at h <;> cases h
  refine ⟨⟨fun s => ⟨⟨twoKeys v s⟩, by cases v <;> rfl⟩, ?_⟩, trivial⟩
  cases v <;> exact hL

theorem prober_looks (answers : List Told) (a : Opening v)
    (h : prober v answers = some (.look a)) : a.Fits := by
  unfold prober at h
  split at h <;> cases h <;> trivial

/-- They meet the hypotheses of the bound; the first text is not opened for them, and the other is
refused. -/
theorem prober_plays (P : Prims) (key : BytesN 32) (iv : Ivs v) (hL : 32 ≤ L)
    (X : Finset (Bytes × Bytes)) (d : Tags v) (s : Side) (x : Ideal' v 1 L X) :
    ∃ text e, x.view P key iv d (prober v) 3 2 s = .ok [some (.ok text), none, some (.err e)] ∧
      (Opening.unwrap .Local text : Opening v).run (x.1.prims (P.withTags v (d.on X x.2)) key iv) key =
        .ok (twoKeys v s).1 := by
  obtain ⟨c, -, h⟩ := (Hiding.wrap .Local (twoKeys v)).core (P.withTags v (d.on X x.2)) key iv
    (comparable_tags _ _ (prober_hides P hL [] _ rfl).1)
  have hok := h x.1.2.1 (x.1.2.2.ciphers (P.withTags v (d.on X x.2))) s (x.1.1 0) []
  generalize hc : c.out .. = text at hok
  have hlook := issued_tells _ _ _ _ _ _ _ hok
  have hbad : PieWrappedKey.parse v .Local (0 :: text) = .err .invalidToken := by
    have : stripPrefix (Spec.paserkHeader v (pieType WKind.Local.kind)) (0 :: text) = none := by
      cases v <;> rfl
    rw [PieWrappedKey.parse_eq, this]
    rfl
  refine ⟨text, .invalidToken, ?_, hlook⟩
  have ht : x.1.1.tape = (x.1.1 0).1 ++ [] := by simp [Blocks.tape]
  have hrun : (Hiding.wrap .Local (twoKeys v)).run (x.1.prims (P.withTags v (d.on X x.2)) key iv) ⟨key⟩ s
      x.1.1.tape = .ok (text, []) := by rw [ht]; exact hok
  unfold Ideal'.view
  generalize x.1.prims (P.withTags v (d.on X x.2)) key iv = Q at hrun
  have h2 : (Opening.unwrap .Local text : Opening v).answer Q key [.wrapped text] = none := by
    unfold Opening.answer Opening.item
    simp
  have h3 : (Opening.unwrap .Local (0 :: text) : Opening v).answer Q key [.wrapped text] =
      some (.err .invalidToken) := by
    unfold Opening.answer Opening.item
    have hne : (0 :: text) ≠ text := fun h => by
      have := congrArg List.length h
      simp at this
    have hni : (Item.wrapped (0 :: text)) ∉ [Item.wrapped text] := by
      rw [List.mem_singleton]
      exact fun h => hne (Item.wrapped.inj h)
    dsimp only
    rw [if_neg hni]
    unfold Opening.run
    dsimp only
    rw [hbad]
    rfl
  rw [probing, show prober v [] = some (.hide (.wrap .Local (twoKeys v))) from rfl]
  dsimp only
  rw [hrun, Res.ok_bind, List.nil_append, probing,
    show prober v [some (.ok text)] = some (.look (.unwrap .Local text)) from rfl]
  dsimp only [Hiding.item]
  rw [h2, List.singleton_append, probing,
    show prober v [some (.ok text), none] = some (.look (.unwrap .Local (0 :: text))) from rfl]
  dsimp only
  rw [h3, probing]
  rfl

end Pasta.C83
