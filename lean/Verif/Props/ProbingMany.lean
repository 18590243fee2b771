import Verif.Spec.ProbingMany
import Verif.Props.Probing
import Verif.Props.Veiling

/-!
# C96: with many keys in use, having texts opened does not help telling message or key of a token

The bounds of C94 and C95 together.
-/

namespace Pasta.C96

open C81 (Parts keyOf)
open C82 (other count count_eq count_prod count_prod')
open C83 (asked run_asked opening blind blindAnswer comparable_tags count_mono count_or combine tag_not_enc)

variable {P : Prims} {v : Ver} {K : Finset (BytesN 32)} {L : Nat}

/-! ### Exchanging the MAC and exchanging the rest -/

theorem tag_not_auth {m : Bytes} (h : isTagInput m = true) : authInput m = none := by
  unfold isTagInput at h
  rw [Bool.or_eq_true, beq_iff_eq, beq_iff_eq] at h
  cases m with
  | nil => rcases h with h | h <;> cases h
  | cons x xs =>
    unfold authInput
    rw [dif_neg, dif_neg]
    · rintro ⟨h1, -⟩
      rcases h with h | h <;> cases h <;> cases h1
    · rintro ⟨h1, -⟩
      rcases h with h | h <;> cases h <;> cases h1

theorem tags_derived (P : Prims) (f : Tags v) (D : Derivation v) :
    (P.withTags v f).withDerived K v D = (P.withDerived K v D).withTags v f := by
  cases v with
  | V3 =>
    unfold Prims.withTags Prims.withDerived
    dsimp only
    congr 1
    funext k m
    cases h : isTagInput m with
    | true =>
      simp only [tag_not_enc h, tag_not_auth h]
      cases inUse K k <;> rfl
    | false => simp
  | V4 =>
    unfold Prims.withTags Prims.withDerived
    dsimp only
    congr 1
    funext n k m
    by_cases h : n = 32 ∧ isTagInput m = true
    · simp [tag_not_enc h.2, tag_not_auth h.2, h]
    · simp [h]

theorem prims_tags {n : Nat} (P : Prims) (f : Tags v) (x : Veiled v n L) :
    x.prims (P.withTags v f) K = (x.prims P K).withTags v f := by
  unfold Veiled.prims
  rw [tags_derived]
  cases v <;> rfl

/-! ### Texts made on request -/

theorem hidden_text (P : Prims) {n : Nat} (x : Veiled v n L) (s : Side) (a : Veiling v)
    (ha : a.what.Comparable P L) (hK : a.key s ∈ K) (hfit : a.what.Fits) (b : BytesN 32) (rest : Rng) :
    (∃ text, ∀ f : Tags v, a.what.run ((x.prims P K).withTags v f) ⟨a.key s⟩ s (b.1 ++ rest) =
      .ok (text, rest)) ∨
    ∃ p : Parts v, p.Fits ∧ (∀ f : Tags v,
        a.what.run ((x.prims P K).withTags v f) ⟨a.key s⟩ s (b.1 ++ rest) =
          .ok (p.text (f (p.input (x.prims P K) (a.key s))), rest)) ∧
      ∀ t, a.what.item (p.text t) = p.item t := by
  obtain ⟨key, a⟩ := a
  dsimp only at *
  have hok : ∀ f : Tags v, ∃ text, a.run ((x.prims P K).withTags v f) ⟨key s⟩ s (b.1 ++ rest) =
      .ok (text, rest) := by
    intro f
    obtain ⟨k, -, h⟩ := a.veilCore (P.withTags v f) (comparable_tags f a ha)
    have := h K x.2.1 (x.2.2.ciphers (P.withTags v f)) s (key s) hK b rest
    rw [← prims_tags]
    exact ⟨_, this⟩
  have hf : (asked s (b.1 ++ rest) a).Fits := by
    cases a with
    | token => exact ⟨hfit.1, hfit.2.1, hfit.2.2.1 s, hfit.2.2.2⟩
    | wrap => trivial
  have hna : (asked s (b.1 ++ rest) a).isAttempt = false := by cases a <;> rfl
  rcases C81.issue (x.prims P K) (key s) _ hf hna with ⟨r, hr⟩ | ⟨p, hp, hr, hi⟩
  · left
    obtain ⟨text, h⟩ := hok (fun _ => ⟨List.replicate _ 0, List.length_replicate⟩)
    refine ⟨text, fun f => ?_⟩
    obtain ⟨text', h'⟩ := hok f
    have e1 := hr f
    have e2 := hr (fun _ => ⟨List.replicate _ 0, List.length_replicate⟩)
    rw [run_asked, h, Res.ok_bind] at e2
    rw [run_asked, h', Res.ok_bind, ← e2] at e1
    cases e1
    exact h'
  · right
    refine ⟨p, hp, fun f => ?_, fun t => ?_⟩
    · obtain ⟨text, h⟩ := hok f
      have e := hr f
      rw [run_asked, h, Res.ok_bind] at e
      cases e
      exact h
    · have := hi t
      cases a with
      | token => exact Option.some.inj this
      | wrap => exact Option.some.inj this

/-! ### The game with blind openings -/

/-- The game where every opening is answered like this. -/
def blinded (P : Prims) (s : Side) (ask : List Told → Option (ProbeOf v)) :
    (k n q : Nat) → Rng → List Item → List Told → Res (List Told)
  | 0, _, _, _, _, answers => .ok answers
  | k + 1, n, q, rng, issued, answers =>
    match ask answers with
    | none => .ok answers
    | some (.hide a) =>
      match n with
      | 0 => .ok answers
      | n + 1 => do
        let (text, rng) ← a.what.run P ⟨a.key s⟩ s rng
        blinded P s ask k n q rng (a.what.item text :: issued) (answers ++ [some (.ok text)])
    | some (.look _ a) =>
      match q with
      | 0 => .ok answers
      | q + 1 => blinded P s ask k n q rng issued (answers ++ [blindAnswer issued a])

/-- What the requests have to keep to. -/
def Allowed (P : Prims) (K : Finset (BytesN 32)) (L : Nat) (ask : List Told → Option (ProbeOf v)) : Prop :=
  ∀ answers, match ask answers with
    | some (.hide a) => a.what.Comparable P L ∧ (∀ s, a.key s ∈ K) ∧ a.what.Fits
    | some (.look _ a) => a.Fits
    | none => True

/-- The points asked for are those of issued items. -/
def Known (Q : Prims) (f : Tags v) (issued : List Item) (S : Finset (Bytes × Bytes)) : Prop :=
  ∀ x ∈ S, ∃ key, ∃ p : Parts v, p.Fits ∧ x = p.input Q key ∧ p.item (f x) ∈ issued

/-- The two games differ only if a tag is guessed. -/
theorem strategy (P : Prims) (K : Finset (BytesN 32)) {n : Nat} (x : Veiled v n L) (s : Side)
    (ask : List Told → Option (ProbeOf v)) (hask : Allowed P K L ask) :
    ∀ (k q : Nat) (ns : List (BytesN 32)) (issued : List Item) (answers : List Told),
    ∃ t : Guess (Bytes × Bytes) (BytesN (Spec.tagLen v)), t.AtMost q ∧
      ∀ (f : Tags v) (S : Finset (Bytes × Bytes)), Known (x.prims P K) f issued S →
        probingMany ((x.prims P K).withTags v f) s ask k ns.length q
            (ns.map Subtype.val).flatten issued answers ≠
          blinded ((x.prims P K).withTags v f) s ask k ns.length q
            (ns.map Subtype.val).flatten issued answers →
        t.Wins f S := by
  intro k
  induction k with
  | zero => intro q ns issued answers; exact ⟨.stop, trivial, fun f S _ h => h rfl⟩
  | succ k ih =>
    intro q ns issued answers
    have hall := hask answers
    cases hq : ask answers with
    | none =>
      refine ⟨.stop, trivial, fun f S _ h => h ?_⟩
      unfold probingMany blinded
      rw [hq]
    | some a =>
      rw [hq] at hall
      cases a with
      | hide a =>
        cases ns with
        | nil =>
          refine ⟨.stop, trivial, fun f S _ h => h ?_⟩
          unfold probingMany blinded
          rw [hq]
          rfl
        | cons b ns =>
          have hstep : ∀ (f : Tags v) text, a.what.run ((x.prims P K).withTags v f) ⟨a.key s⟩ s
              (b.1 ++ (ns.map Subtype.val).flatten) = .ok (text, (ns.map Subtype.val).flatten) →
              probingMany ((x.prims P K).withTags v f) s ask (k + 1) (b :: ns).length q
                  ((b :: ns).map Subtype.val).flatten issued answers =
                probingMany ((x.prims P K).withTags v f) s ask k ns.length q
                  (ns.map Subtype.val).flatten (a.what.item text :: issued)
                  (answers ++ [some (.ok text)]) ∧
              blinded ((x.prims P K).withTags v f) s ask (k + 1) (b :: ns).length q
                  ((b :: ns).map Subtype.val).flatten issued answers =
                blinded ((x.prims P K).withTags v f) s ask k ns.length q
                  (ns.map Subtype.val).flatten (a.what.item text :: issued)
                  (answers ++ [some (.ok text)]) := by
            intro f text h
            rw [List.map_cons, List.flatten_cons, List.length_cons]
            constructor
            · rw [probingMany, hq]
              dsimp only
              rw [h]
              rfl
            · rw [blinded, hq]
              dsimp only
              rw [h]
              rfl
          rcases hidden_text P x s a hall.1 (hall.2.1 s) hall.2.2 b (ns.map Subtype.val).flatten with
            ⟨text, hr⟩ | ⟨p, hp, hr, hi⟩
          · obtain ⟨t, ht, hw⟩ := ih q ns (a.what.item text :: issued) (answers ++ [some (.ok text)])
            refine ⟨t, ht, fun f S hk h => hw f S (fun y hy => ?_) ?_⟩
            · obtain ⟨key, p, h1, h2, h3⟩ := hk y hy
              exact ⟨key, p, h1, h2, List.mem_cons_of_mem _ h3⟩
            · obtain ⟨e1, e2⟩ := hstep f text (hr f)
              rwa [e1, e2] at h
          · have h := fun t => ih q ns (a.what.item (p.text t) :: issued) (answers ++ [some (.ok (p.text t))])
            choose t ht hw using h
            refine ⟨.look (p.input (x.prims P K) (a.key s)) t, ht, fun f S hk h => hw _ f _ ?_ ?_⟩
            · intro y hy
              rcases Finset.mem_insert.1 hy with rfl | hy
              · exact ⟨_, p, hp, rfl, by rw [hi]; exact List.mem_cons_self⟩
              · obtain ⟨key, p, h1, h2, h3⟩ := hk y hy
                exact ⟨key, p, h1, h2, List.mem_cons_of_mem _ h3⟩
            · obtain ⟨e1, e2⟩ := hstep f _ (hr f)
              rwa [e1, e2] at h
      | look key a =>
        cases q with
        | zero =>
          refine ⟨.stop, trivial, fun f S _ h => h ?_⟩
          unfold probingMany blinded
          rw [hq]
        | succ q =>
          obtain ⟨t, ht, hw⟩ := ih q ns issued (answers ++ [blindAnswer issued a])
          have hstep : ∀ f : Tags v,
              a.answer ((x.prims P K).withTags v f) key issued = blindAnswer issued a →
              probingMany ((x.prims P K).withTags v f) s ask (k + 1) ns.length (q + 1)
                  (ns.map Subtype.val).flatten issued answers =
                probingMany ((x.prims P K).withTags v f) s ask k ns.length q
                  (ns.map Subtype.val).flatten issued (answers ++ [blindAnswer issued a]) ∧
              blinded ((x.prims P K).withTags v f) s ask (k + 1) ns.length (q + 1)
                  (ns.map Subtype.val).flatten issued answers =
                blinded ((x.prims P K).withTags v f) s ask k ns.length q
                  (ns.map Subtype.val).flatten issued (answers ++ [blindAnswer issued a]) := by
            intro f h
            constructor
            · rw [probingMany, hq]
              dsimp only
              rw [h]
            · rw [blinded, hq]
          rcases opening (x.prims P K) key a hall with hr | ⟨p, g, hp, hit, hr⟩
          · refine ⟨t, C81.atMost_mono t (Nat.le_succ q) ht, fun f S hk h => hw f S hk ?_⟩
            obtain ⟨e1, e2⟩ := hstep f (by unfold Opening.answer blindAnswer; rw [hr f]; cases a.item <;> rfl)
            rwa [e1, e2] at h
          · by_cases hin : p.item g ∈ issued
            · refine ⟨t, C81.atMost_mono t (Nat.le_succ q) ht, fun f S hk h => hw f S hk ?_⟩
              obtain ⟨e1, e2⟩ := hstep f (by
                unfold Opening.answer blindAnswer; rw [hit]; dsimp only; rw [if_pos hin, if_pos hin])
              rwa [e1, e2] at h
            · refine ⟨.guess (p.input (x.prims P K) key) g fun _ => t, ⟨q, rfl, fun _ => ht⟩,
                fun f S hk h => ?_⟩
              by_cases hg : f (p.input (x.prims P K) key) = g
              · refine .inl ⟨fun hS => ?_, hg⟩
                obtain ⟨key', p', hp', hx, hin'⟩ := hk _ hS
                rw [← Parts.msg_inj hp hp' (congrArg Prod.snd hx), hg] at hin'
                exact hin hin'
              · refine .inr (hw f S hk ?_)
                obtain ⟨e1, e2⟩ := hstep f (by unfold Opening.answer blindAnswer; rw [hr f hg]; cases a.item <;> rfl)
                rwa [e1, e2] at h

/-! ### The game with blind openings is one without openings -/

/-- The answers when the texts made are these, and what is to be hidden next. -/
def drive (ask : List Told → Option (ProbeOf v)) :
    (k n q : Nat) → List Item → List Told → List Bytes → List Told × Option (Veiling v)
  | 0, _, _, _, answers, _ => (answers, none)
  | k + 1, n, q, issued, answers, texts =>
    match ask answers with
    | none => (answers, none)
    | some (.hide a) =>
      match n, texts with
      | 0, _ => (answers, none)
      | _ + 1, [] => (answers, some a)
      | n + 1, text :: texts =>
        drive ask k n q (a.what.item text :: issued) (answers ++ [some (.ok text)]) texts
    | some (.look _ a) =>
      match q with
      | 0 => (answers, none)
      | q + 1 => drive ask k n q issued (answers ++ [blindAnswer issued a]) texts

theorem drive_comparable {P : Prims} {ask : List Told → Option (ProbeOf v)} (hask : Allowed P K L ask) :
    ∀ k n q issued answers texts a, (drive ask k n q issued answers texts).2 = some a →
      a.what.Comparable P L ∧ ∀ s, a.key s ∈ K := by
  intro k
  induction k with
  | zero => intro n q issued answers texts a h; cases h
  | succ k ih =>
    intro n q issued answers texts a h
    have hall := hask answers
    unfold drive at h
    cases hq : ask answers with
    | none => rw [hq] at h; cases h
    | some r =>
      rw [hq] at h hall
      cases r with
      | hide b =>
        cases n with
        | zero => cases h
        | succ n =>
          cases texts with
          | nil => cases h; exact ⟨hall.1, hall.2.1⟩
          | cons t ts => exact ih _ _ _ _ _ _ h
      | look key b =>
        cases q with
        | zero => cases h
        | succ q => exact ih _ _ _ _ _ _ h

theorem blinded_eq (P : Prims) (s : Side) (ask : List Told → Option (ProbeOf v))
    (k₀ n₀ q₀ : Nat) : ∀ k n q rng issued answers texts,
      (∀ ts, drive ask k₀ n₀ q₀ [] [] (texts ++ ts) = drive ask k n q issued answers ts) →
      blinded P s ask k n q rng issued answers =
        (veilingGame P s (fun ts => (drive ask k₀ n₀ q₀ [] [] ts).2) n rng texts >>= fun ts =>
          .ok (drive ask k₀ n₀ q₀ [] [] ts).1) := by
  intro k
  induction k with
  | zero =>
    intro n q rng issued answers texts h
    have h0 := h []
    rw [List.append_nil] at h0
    cases n with
    | zero => simp [blinded, veilingGame, h0, drive]
    | succ n => simp [blinded, veilingGame, h0, drive]
  | succ k ih =>
    intro n q rng issued answers texts h
    have h0 := h []
    rw [List.append_nil] at h0
    have stop : drive ask (k + 1) n q issued answers [] = (answers, none) →
        (.ok answers : Res (List Told)) =
          (veilingGame P s (fun ts => (drive ask k₀ n₀ q₀ [] [] ts).2) n rng texts >>= fun ts =>
            .ok (drive ask k₀ n₀ q₀ [] [] ts).1) := by
      intro h1
      rw [h1] at h0
      cases n with
      | zero => simp [veilingGame, h0]
      | succ n => simp [veilingGame, h0]
    cases hq : ask answers with
    | none =>
      rw [← stop (by rw [drive, hq]), blinded, hq]
    | some r =>
      cases r with
      | hide a =>
        cases n with
        | zero => rw [← stop (by rw [drive, hq]), blinded, hq]
        | succ n =>
          rw [show drive ask (k + 1) (n + 1) q issued answers [] = (answers, some a) by
            rw [drive, hq]] at h0
          rw [blinded, hq, veilingGame]
          dsimp only
          rw [h0]
          dsimp only
          rw [Res.bind_assoc']
          congr 1
          funext r
          refine ih n q r.2 _ _ (texts ++ [r.1]) fun ts => ?_
          rw [List.append_assoc, h]
          rw [List.singleton_append, drive, hq]
      | look key a =>
        cases q with
        | zero => rw [← stop (by rw [drive, hq]), blinded, hq]
        | succ q =>
          rw [blinded, hq]
          dsimp only
          refine ih n q rng _ _ texts fun ts => ?_
          rw [h, drive, hq]

/-! ### The bound -/

/-- The same with blind openings. -/
def blindView (P : Prims) (K : Finset (BytesN 32)) {n : Nat} {X : Finset (Bytes × Bytes)} (d : Tags v) (ask : List Told → Option (ProbeOf v)) (k q : Nat) (s : Side)
    (x : Veiled' v n L X) : Res (List Told) :=
  blinded (x.1.prims (P.withTags v (d.on X x.2)) K) s ask k n q x.1.1.tape [] []

theorem card_pos (v : Ver) (n L : Nat) : 0 < Fintype.card (Veiled v n L) := by
  have h := C82.card_pos v n L
  rw [Fintype.card_pos_iff] at h ⊢
  exact ⟨h.some.1, fun _ _ => ⟨⟨List.replicate 32 0, rfl⟩,
    ⟨List.replicate _ 0, List.length_replicate⟩, ⟨List.replicate _ 0, List.length_replicate⟩⟩,
    h.some.2.2⟩

theorem card_ideal (n : Nat) (X : Finset (Bytes × Bytes)) : Fintype.card (Veiled' v n L X) =
    Fintype.card (Veiled v n L) * Fintype.card (X → BytesN (Spec.tagLen v)) := Fintype.card_prod _ _

/-- The two views seldom differ. -/
theorem differ (P : Prims) (K : Finset (BytesN 32)) (n : Nat) (s : Side)
    (ask : List Told → Option (ProbeOf v)) (hask : Allowed P K L ask) (k q : Nat) :
    ∃ X₀ : Finset (Bytes × Bytes), ∀ X, X₀ ⊆ X → ∀ d : Tags v,
      count (fun x : Veiled' v n L X => x.view P K d ask k q s ≠ blindView P K d ask k q s x) *
        2 ^ (8 * Spec.tagLen v) ≤ q * Fintype.card (Veiled' v n L X) := by
  classical
  have h := fun x : Veiled v n L => strategy P K x s ask hask k q (List.ofFn x.1) [] []
  choose t ht hw using h
  refine ⟨Finset.univ.biUnion fun x => (t x).points, fun X hX d => ?_⟩
  rw [count_prod, Finset.sum_mul]
  refine le_trans (Finset.sum_le_sum fun x _ => ?_)
    (b := ∑ _x : Veiled v n L, q * Fintype.card (X → BytesN (Spec.tagLen v))) ?_
  · have h := Guess.card_wins_all d X (t x) q (ht x)
      (fun y hy => hX (Finset.mem_biUnion.2 ⟨x, Finset.mem_univ _, hy⟩))
    rw [C81.card_tags, count_eq] at h
    refine le_trans (Nat.mul_le_mul_right _ (count_mono fun g hg => ?_)) h
    refine hw x (Guess.ext d X g) ∅ (fun y hy => absurd hy (Finset.notMem_empty y)) ?_
    unfold Veiled'.view blindView at hg
    rw [prims_tags] at hg
    rw [List.length_ofFn]
    exact hg
  · rw [Finset.sum_const, Finset.card_univ, Nat.nsmul_eq_mul, card_ideal]
    exact le_of_eq (by ring)

theorem view_side (P : Prims) (K : Finset (BytesN 32)) (n : Nat) (ask : List Bytes → Option (Veiling v))
    (hask : ∀ texts a, ask texts = some a → a.what.Comparable P L ∧ ∀ s, a.key s ∈ K)
    (A : Res (List Bytes) → Prop) (s : Side) :
    count (fun x : Veiled v n L => A (x.view P K ask s)) * 2 ^ 255 ≤
      count (fun x : Veiled v n L => A (x.view P K ask (other s))) * 2 ^ 255 +
        n * (n - 1) * Fintype.card (Veiled v n L) := by
  obtain ⟨co, hco, -, hg⟩ := C94.game_eq P ask hask
  simp only [C94.view_eq P hg]
  exact C94.one_side P n co hco (fun texts => A (.ok texts)) s

theorem blind_sides (P : Prims) (K : Finset (BytesN 32)) (n : Nat) (s : Side)
    (ask : List Told → Option (ProbeOf v)) (hask : Allowed P K L ask) (k q : Nat)
    (X : Finset (Bytes × Bytes)) (d : Tags v) (D : Res (List Told) → Prop) :
    count (fun x : Veiled' v n L X => D (blindView P K d ask k q s x)) * 2 ^ 255 ≤
      count (fun x : Veiled' v n L X => D (blindView P K d ask k q (other s) x)) * 2 ^ 255 +
        n * (n - 1) * Fintype.card (Veiled' v n L X) := by
  classical
  rw [count_prod', count_prod', Finset.sum_mul, Finset.sum_mul]
  have e : n * (n - 1) * Fintype.card (Veiled' v n L X) =
      ∑ _g : X → BytesN (Spec.tagLen v), n * (n - 1) * Fintype.card (Veiled v n L) := by
    rw [Finset.sum_const, Finset.card_univ, Nat.nsmul_eq_mul, card_ideal]
    ring
  rw [e, ← Finset.sum_add_distrib]
  refine Finset.sum_le_sum fun g _ => ?_
  have h := view_side (P.withTags v (d.on X g)) K n
    (fun ts => (drive ask k n q [] [] ts).2)
    (fun texts a ha => ⟨comparable_tags _ _ (drive_comparable hask _ _ _ _ _ _ _ ha).1,
      (drive_comparable hask _ _ _ _ _ _ _ ha).2⟩)
    (fun r => D (r >>= fun ts => .ok (drive ask k n q [] [] ts).1)) s
  have hv : ∀ s (x : Veiled v n L), blindView P K d ask k q s (x, g) =
      (x.view (P.withTags v (d.on X g)) K (fun ts => (drive ask k n q [] [] ts).2) s >>= fun ts =>
        .ok (drive ask k n q [] [] ts).1) := by
    intro s x
    exact blinded_eq _ s ask k n q k n q _ [] [] [] (fun ts => rfl)
  simp only [hv]
  exact h

/-- Whatever is asked for, whatever is handed in and whatever is concluded from the answers: the
conclusion is drawn (almost) as often when the left candidates are used as when the right ones are. -/
theorem advantage (P : Prims) (K : Finset (BytesN 32)) (k n q : Nat)
    (ask : List Told → Option (ProbeOf v))
    (hhide : ∀ answers a, ask answers = some (.hide a) →
      a.what.Comparable P L ∧ (∀ s, a.key s ∈ K) ∧ a.what.Fits)
    (hlook : ∀ answers key a, ask answers = some (.look key a) → a.Fits)
    (D : Res (List Told) → Prop) :
    ∃ X₀ : Finset (Bytes × Bytes), ∀ X, X₀ ⊆ X → ∀ d : Tags v,
      |Veiled'.chance (fun x : Veiled' v n L X => D (x.view P K d ask k q .left)) -
          Veiled'.chance (fun x : Veiled' v n L X => D (x.view P K d ask k q .right))| ≤
        n * (n - 1) / 2 ^ 255 + 2 * q / 2 ^ (8 * Spec.tagLen v) := by
  classical
  have hask : Allowed P K L ask := by
    intro answers
    cases h : ask answers with
    | none => trivial
    | some a =>
      cases a with
      | hide a => exact hhide _ _ h
      | look key a => exact hlook _ _ _ h
  obtain ⟨X₁, h₁⟩ := differ P K n .left ask hask k q
  obtain ⟨X₂, h₂⟩ := differ P K n .right ask hask k q
  refine ⟨X₁ ∪ X₂, fun X hX d => ?_⟩
  have d1 := h₁ X (fun x hx => hX (Finset.mem_union_left _ hx)) d
  have d2 := h₂ X (fun x hx => hX (Finset.mem_union_right _ hx)) d
  have b1 := blind_sides P K n .left ask hask k q X d D
  have b2 := blind_sides P K n .right ask hask k q X d D
  simp only [other] at b1 b2
  have hor : ∀ s, count (fun x : Veiled' v n L X => D (x.view P K d ask k q s)) ≤
      count (fun x : Veiled' v n L X => D (blindView P K d ask k q s x)) +
        count (fun x : Veiled' v n L X =>
          x.view P K d ask k q s ≠ blindView P K d ask k q s x) := by
    intro s
    refine le_trans (count_mono fun x hx => ?_) (count_or _ _)
    by_cases h : x.view P K d ask k q s = blindView P K d ask k q s x
    · rw [h] at hx; exact .inl hx
    · exact .inr h
  have hro : ∀ s, count (fun x : Veiled' v n L X => D (blindView P K d ask k q s x)) ≤
      count (fun x : Veiled' v n L X => D (x.view P K d ask k q s)) +
        count (fun x : Veiled' v n L X =>
          x.view P K d ask k q s ≠ blindView P K d ask k q s x) := by
    intro s
    refine le_trans (count_mono fun x hx => ?_) (count_or _ _)
    by_cases h : x.view P K d ask k q s = blindView P K d ask k q s x
    · rw [← h] at hx; exact .inl hx
    · exact .inr h
  have hN : 0 < Fintype.card (Veiled' v n L X) := by
    rw [card_ideal]
    exact Nat.mul_pos (card_pos v n L) (Fintype.card_pos_iff.2 ⟨fun x => d x.1⟩)
  have l1 := hor .left
  have l2 := hro .left
  have r1 := hor .right
  have r2 := hro .right
  unfold Veiled'.chance
  rw [count_eq, count_eq]
  exact combine _ _ _ _ _ _ _ n q _ _ (Nat.two_pow_pos 255) (Nat.two_pow_pos _) hN l1 l2 r1 r2 b1 b2
    d1 d2 (by rw [Nat.cast_pow, Nat.cast_ofNat]) (by rw [Nat.cast_pow, Nat.cast_ofNat])

/-- Up to `2 ^ 64` texts and `2 ^ 64` openings the chances differ by at most `2 ^ -126`. -/
theorem advantage_practical (P : Prims) (K : Finset (BytesN 32)) (k n q : Nat) (hn : n ≤ 2 ^ 64)
    (hq : q ≤ 2 ^ 64) (ask : List Told → Option (ProbeOf v))
    (hhide : ∀ answers a, ask answers = some (.hide a) →
      a.what.Comparable P L ∧ (∀ s, a.key s ∈ K) ∧ a.what.Fits)
    (hlook : ∀ answers key a, ask answers = some (.look key a) → a.Fits)
    (D : Res (List Told) → Prop) :
    ∃ X₀ : Finset (Bytes × Bytes), ∀ X, X₀ ⊆ X → ∀ d : Tags v,
      |Veiled'.chance (fun x : Veiled' v n L X => D (x.view P K d ask k q .left)) -
          Veiled'.chance (fun x : Veiled' v n L X => D (x.view P K d ask k q .right))| ≤ 1 / 2 ^ 126 := by
  obtain ⟨X₀, h⟩ := advantage P K k n q ask hhide hlook D
  refine ⟨X₀, fun X hX d => (h X hX d).trans ?_⟩
  have h1 : (n : ℚ) ≤ 2 ^ 64 := by exact_mod_cast hn
  have h2 : (q : ℚ) ≤ 2 ^ 64 := by exact_mod_cast hq
  have h0 : (0 : ℚ) ≤ n := Nat.cast_nonneg n
  have a1 : (n : ℚ) * (n - 1) / 2 ^ 255 ≤ 1 / 2 ^ 127 := by
    rw [div_le_div_iff₀ (by positivity) (by positivity)]
    have h3 : (2 : ℚ) ^ 255 = (2 ^ 64 * 2 ^ 64) * 2 ^ 127 := by rw [← pow_add, ← pow_add]
    rw [h3, one_mul]
    refine mul_le_mul_of_nonneg_right ?_ (by positivity)
    nlinarith
  have a2 : 2 * (q : ℚ) / 2 ^ (8 * Spec.tagLen v) ≤ 1 / 2 ^ 127 := by
    have ht : (2 : ℚ) ^ 256 ≤ 2 ^ (8 * Spec.tagLen v) := by
      refine pow_le_pow_right₀ (by norm_num) ?_
      cases v <;> decide
    rw [div_le_div_iff₀ (by positivity) (by positivity), one_mul]
    refine le_trans ?_ ht
    have h3 : (2 : ℚ) ^ 256 = 2 ^ 129 * 2 ^ 127 := by rw [← pow_add]
    rw [h3]
    refine mul_le_mul_of_nonneg_right ?_ (by positivity)
    have h4 : (2 : ℚ) ^ 129 = 2 * 2 ^ 64 * 2 ^ 64 := by rw [← pow_succ', ← pow_add]
    have h5 : (1 : ℚ) ≤ 2 ^ 64 := by norm_num
    rw [h4]
    nlinarith
  have e : (1 : ℚ) / 2 ^ 126 = 1 / 2 ^ 127 + 1 / 2 ^ 127 := by
    have : (2 : ℚ) ^ 127 = 2 * 2 ^ 126 := by rw [← pow_succ']
    rw [this]
    field_simp
    norm_num
  rw [e]
  exact add_le_add a1 a2

/-! ### The game is played -/

/-- Nothing breaks the game off: with `k` requests and `k` of each kind allowed, there are `k` answers
unless nothing more is asked. -/
theorem runs (P : Prims) (K : Finset (BytesN 32)) (k n q : Nat) (hn : k ≤ n) (hq : k ≤ q)
    (ask : List Told → Option (ProbeOf v))
    (hhide : ∀ answers a, ask answers = some (.hide a) →
      a.what.Comparable P L ∧ ∀ s, a.key s ∈ K)
    (X : Finset (Bytes × Bytes)) (d : Tags v) (s : Side) (x : Veiled' v n L X) :
    ∃ answers, x.view P K d ask k q s = .ok answers ∧
      (answers.length = k ∨ answers.length < k ∧ ask answers = none) := by
  have h : ∀ (k q : Nat) (ns : List (BytesN 32)) (issued : List Item) (answers : List Told),
      k ≤ ns.length → k ≤ q → ∃ out, probingMany (x.1.prims (P.withTags v (d.on X x.2)) K) s ask k
        ns.length q (ns.map Subtype.val).flatten issued answers = .ok out ∧
        (out.length = answers.length + k ∨ out.length < answers.length + k ∧ ask out = none) := by
    intro k
    induction k with
    | zero => intro q ns issued answers _ _; exact ⟨answers, rfl, .inl rfl⟩
    | succ k ih =>
      intro q ns issued answers hn hq
      cases ha : ask answers with
      | none => exact ⟨answers, by rw [probingMany, ha], .inr ⟨by omega, ha⟩⟩
      | some a =>
        cases a with
        | hide a =>
          cases ns with
          | nil => simp at hn
          | cons b ns =>
            have hok : ∃ text, a.what.run (x.1.prims (P.withTags v (d.on X x.2)) K) ⟨a.key s⟩ s
                (b.1 ++ (ns.map Subtype.val).flatten) = .ok (text, (ns.map Subtype.val).flatten) := by
              obtain ⟨k, -, h⟩ := a.what.veilCore (P.withTags v (d.on X x.2))
                (comparable_tags _ _ (hhide _ _ ha).1)
              exact ⟨_, h K x.1.2.1 (x.1.2.2.ciphers _) s (a.key s) ((hhide _ _ ha).2 s) b _⟩
            obtain ⟨text, hok⟩ := hok
            obtain ⟨out, h1, h2⟩ := ih q ns (a.what.item text :: issued) (answers ++ [some (.ok text)])
              (by simpa using hn) (by omega)
            refine ⟨out, ?_, ?_⟩
            · rw [List.map_cons, List.flatten_cons, List.length_cons, probingMany, ha]
              dsimp only
              rw [hok]
              exact h1
            · rw [List.length_append, List.length_singleton] at h2
              rcases h2 with h2 | ⟨h2, h3⟩
              · exact .inl (by omega)
              · exact .inr ⟨by omega, h3⟩
        | look key a =>
          cases q with
          | zero => omega
          | succ q =>
            obtain ⟨out, h1, h2⟩ := ih q ns issued
              (answers ++ [a.answer (x.1.prims (P.withTags v (d.on X x.2)) K) key issued])
              (by omega) (by omega)
            refine ⟨out, ?_, ?_⟩
            · rw [probingMany, ha]
              exact h1
            · rw [List.length_append, List.length_singleton] at h2
              rcases h2 with h2 | ⟨h2, h3⟩
              · exact .inl (by omega)
              · exact .inr ⟨by omega, h3⟩
  obtain ⟨out, h1, h2⟩ := h k q (List.ofFn x.1.1) [] [] (by rw [List.length_ofFn]; exact hn) hq
  rw [List.length_ofFn] at h1
  refine ⟨out, h1, ?_⟩
  simpa using h2

/-! ### A case -/

/-- Left, the first of two keys wraps zeros; right, the second wraps ones. The result is handed in under
both keys, and then something else. -/
def prober (v : Ver) (a b : BytesN 32) : List Told → Option (ProbeOf v)
  | [] => some (.hide ⟨fun | .left => a | .right => b, .wrap .Local (C83.twoKeys v)⟩)
  | [some (.ok text)] => some (.look a (.unwrap .Local text))
  | [some (.ok text), _] => some (.look b (.unwrap .Local text))
  | [some (.ok text), _, _] => some (.look a (.unwrap .Local (0 :: text)))
  | _ => none

theorem prober_hides (P : Prims) (a b : BytesN 32) (hL : 32 ≤ L) (answers : List Told) (r : Veiling v)
    (h : prober v a b answers = some (.hide r)) :
    r.what.Comparable P L ∧ (∀ s, r.key s ∈ ({a, b} : Finset (BytesN 32))) ∧ r.what.Fits := by
  unfold prober at h
  split at h <;> cases h
  refine ⟨⟨fun s => ⟨⟨C83.twoKeys v s⟩, by cases v <;> rfl⟩, ?_⟩, fun s => by cases s <;> simp, trivial⟩
  cases v <;> exact hL

example (P : Prims) (a b : BytesN 32) (hL : 32 ≤ L) (D : Res (List Told) → Prop) :
    ∃ X₀ : Finset (Bytes × Bytes), ∀ X, X₀ ⊆ X → ∀ d : Tags v,
      |Veiled'.chance (fun x : Veiled' v 1 L X => D (x.view P {a, b} d (prober v a b) 4 3 .left)) -
          Veiled'.chance (fun x : Veiled' v 1 L X => D (x.view P {a, b} d (prober v a b) 4 3 .right))| ≤
        (1 : Nat) * ((1 : Nat) - 1) / 2 ^ 255 + 2 * (3 : Nat) / 2 ^ (8 * Spec.tagLen v) := by
  refine advantage P {a, b} 4 1 3 (prober v a b) (prober_hides P a b hL) ?_ D
  intro answers key r h
  unfold prober at h
  split at h <;> cases h <;> trivial

/-- The text is not opened for them, although it would open under one of the keys, to the candidate that
was used. -/
theorem prober_plays (P : Prims) (a b : BytesN 32) (hL : 32 ≤ L) (X : Finset (Bytes × Bytes)) (d : Tags v)
    (s : Side) (x : Veiled' v 1 L X) :
    ∃ text e, x.view P {a, b} d (prober v a b) 4 3 s =
        .ok [some (.ok text), none, none, some (.err e)] ∧
      (Opening.unwrap .Local text : Opening v).run (x.1.prims (P.withTags v (d.on X x.2)) {a, b})
        (match s with | .left => a | .right => b) = .ok (C83.twoKeys v s).1 := by
  obtain ⟨c, -, h⟩ := (Hiding.wrap .Local (C83.twoKeys v)).veilCore (P.withTags v (d.on X x.2))
    (comparable_tags _ _ (prober_hides (L := L) P a b hL [] _ rfl).1)
  have hok := h {a, b} x.1.2.1 (x.1.2.2.ciphers (P.withTags v (d.on X x.2))) s
    (match s with | .left => a | .right => b) (by cases s <;> simp) (x.1.1 0) []
  generalize hc : c.out .. = text at hok
  have hlook := C83.issued_tells _ _ _ _ _ _ _ hok
  have hbad : PieWrappedKey.parse v .Local (0 :: text) = .err .invalidToken := by
    have : stripPrefix (Spec.paserkHeader v (Spec.pieType WKind.Local.kind)) (0 :: text) = none := by
      cases v <;> rfl
    rw [PieWrappedKey.parse_eq, this]
    rfl
  refine ⟨text, .invalidToken, ?_, hlook⟩
  have ht : x.1.1.tape = (x.1.1 0).1 ++ [] := by simp [Blocks.tape]
  have hrun : (Hiding.wrap .Local (C83.twoKeys v)).run (x.1.prims (P.withTags v (d.on X x.2)) {a, b})
      ⟨match s with | .left => a | .right => b⟩ s x.1.1.tape = .ok (text, []) := by rw [ht]; exact hok
  unfold Veiled'.view
  generalize x.1.prims (P.withTags v (d.on X x.2)) {a, b} = Q at hrun
  have h2 : ∀ key, (Opening.unwrap .Local text : Opening v).answer Q key [.wrapped text] = none := by
    intro key
    unfold Opening.answer Opening.item
    simp
  have h3 : (Opening.unwrap .Local (0 :: text) : Opening v).answer Q a [.wrapped text] =
      some (.err .invalidToken) := by
    unfold Opening.answer Opening.item
    have hne : (0 :: text) ≠ text := fun h => by
      have := congrArg List.length h
      simp at this
    have hni : (Item.wrapped (0 :: text)) ∉ [Item.wrapped text] := by
      rw [List.mem_singleton]
      exact fun h => hne (Item.wrapped.inj h)
    dsimp only
    rw [if_neg hni]
    unfold Opening.run
    dsimp only
    rw [hbad]
    rfl
  rw [probingMany, show prober v a b [] = some (.hide ⟨fun | .left => a | .right => b,
    .wrap .Local (C83.twoKeys v)⟩) from rfl]
  dsimp only
  rw [hrun, Res.ok_bind, List.nil_append, probingMany,
    show prober v a b [some (.ok text)] = some (.look a (.unwrap .Local text)) from rfl]
  dsimp only [Hiding.item]
  rw [h2, List.singleton_append, probingMany,
    show prober v a b [some (.ok text), none] = some (.look b (.unwrap .Local text)) from rfl]
  dsimp only
  rw [h2, List.cons_append, List.singleton_append, probingMany,
    show prober v a b [some (.ok text), none, none] = some (.look a (.unwrap .Local (0 :: text))) from rfl]
  dsimp only
  rw [h3, probingMany]
  rfl

end Pasta.C96
