import Verif.Props.Compose
import Verif.Props.TokenText
import Mathlib.Data.List.Induction

/-! # C78: a receiver whose keys change over time -/

namespace Pasta

open Spec (header IsToken Fits)

namespace C78

variable {P : Prims} {v : Ver} {M F E : Type}

/-- What happens over time: a public key is entered into the receiver's map under its id, an id is
removed, someone signs a token. -/
inductive Action (P : Prims) (v : Ver)
  | enter (key : Key P v .Public)
  | remove (id : KeyId v .Public)
  | sign (sk : Key P v .Secret) (e : C14.Event)

/-- The effect on the receiver's map (`HashMap::insert` and `HashMap::remove`). -/
def apply (m : KeyCache P v) : Action P v → KeyCache P v
  | .enter key => match key.toId with
    | .ok id => m.insert id key
    | _ => m
  | .remove id => m.remove id
  | .sign .. => m

/-- The receiver's map after a history (oldest action first). -/
def keysAfter (h : List (Action P v)) : KeyCache P v := h.foldl apply []

/-- `key` is in force under `id`: it was entered, it has this id, and since then the id was not
removed and no other key entered under it. -/
def InForce (h : List (Action P v)) (id : KeyId v .Public) (key : Key P v .Public) : Prop :=
  ∃ before after, h = before ++ .enter key :: after ∧ key.toId = .ok id ∧
    .remove id ∉ after ∧ ∀ key', .enter key' ∈ after → key'.toId ≠ .ok id

theorem get_remove (m : KeyCache P v) (id id' : KeyId v .Public) :
    (m.remove id).get id' = if id.beq id' then none else m.get id' := by
  induction m with
  | nil => unfold KeyCache.remove; simp [KeyCache.get]
  | cons e m ih =>
    unfold KeyCache.remove at ih ⊢
    rw [List.filter_cons]
    by_cases h1 : e.1.beq id = true
    · have h2 := (C31.eq_iff _ _).1 h1
      rw [if_neg (by simp [h1]), ih]
      by_cases h : id.beq id' = true
      · rw [if_pos h, if_pos h]
      · rw [if_neg h, if_neg h]
        show _ = if e.1.beq id' then some e.2 else KeyCache.get m id'
        rw [h2, if_neg h]
    · rw [if_pos (by simp [h1])]
      show (if e.1.beq id' then some e.2 else KeyCache.get _ id') = _
      rw [ih]
      by_cases h : id.beq id' = true
      · rw [if_pos h, if_pos h, if_neg]
        rwa [← (C31.eq_iff _ _).1 h]
      · rw [if_neg h, if_neg h]; rfl

theorem inForce_append (h : List (Action P v)) (a : Action P v) (id : KeyId v .Public)
    (key : Key P v .Public) : InForce (h ++ [a]) id key ↔
      (a = .enter key ∧ key.toId = .ok id) ∨
      (InForce h id key ∧ a ≠ .remove id ∧ ∀ key', a = .enter key' → key'.toId ≠ .ok id) := by
  constructor
  · rintro ⟨b, c, h1, h2, h3, h4⟩
    rcases List.eq_nil_or_concat c with rfl | ⟨c, a', rfl⟩
    · left
      have := (List.append_inj' h1 rfl).2
      simp only [List.cons.injEq, and_true] at this
      exact ⟨this, h2⟩
    · right
      rw [List.concat_eq_append] at *
      rw [← List.cons_append, ← List.append_assoc] at h1
      obtain ⟨h5, h6⟩ := List.append_inj' h1 rfl
      simp only [List.cons.injEq, and_true] at h6
      subst h6
      refine ⟨⟨b, c, h5, h2, fun h => h3 (List.mem_append_left _ h), fun k hk =>
        h4 k (List.mem_append_left _ hk)⟩, ?_, ?_⟩
      · rintro rfl; exact h3 (by simp)
      · rintro k rfl; exact h4 k (by simp)
  · rintro (⟨rfl, h⟩ | ⟨⟨b, c, rfl, h2, h3, h4⟩, h5, h6⟩)
    · exact ⟨_, [], rfl, h, by simp, by simp⟩
    · refine ⟨b, c ++ [a], by simp, h2, ?_, ?_⟩
      · simp only [List.mem_append, List.mem_singleton, not_or]
        exact ⟨h3, fun e => h5 e.symm⟩
      · intro k hk
        simp only [List.mem_append, List.mem_singleton] at hk
        rcases hk with hk | hk
        · exact h4 k hk
        · exact h6 k hk.symm

/-- The map holds exactly the keys in force. -/
theorem in_force_iff (h : List (Action P v)) (id : KeyId v .Public) (key : Key P v .Public) :
    (keysAfter h).get id = some key ↔ InForce h id key := by
  induction h using List.reverseRecOn with
  | nil =>
    constructor
    · intro h; exact nomatch h
    · rintro ⟨b, c, h, _⟩; simp at h
  | append_singleton h a ih =>
    rw [inForce_append, ← ih]
    have e : keysAfter (h ++ [a]) = apply (keysAfter h) a := by
      unfold keysAfter; rw [List.foldl_append]; rfl
    rw [e]
    cases a with
    | enter k =>
      obtain ⟨i, hi, -⟩ := C30.id_spec k
      simp only [apply, hi, C50.get_insert]
      by_cases h1 : i = id
      · subst h1
        simp only [if_pos ((C31.eq_iff i i).2 rfl), Option.some.injEq, Action.enter.injEq]
        constructor
        · rintro rfl; exact .inl ⟨rfl, hi⟩
        · rintro (⟨rfl, _⟩ | ⟨_, _, h⟩)
          · rfl
          · exact absurd hi (h k rfl)
      · simp only [if_neg (fun h => h1 ((C31.eq_iff i id).1 h)), Action.enter.injEq]
        constructor
        · intro h
          exact .inr ⟨h, by simp, by rintro _ rfl; rw [hi]; simpa using h1⟩
        · rintro (⟨rfl, h⟩ | ⟨h, _⟩)
          · rw [hi] at h; exact absurd (Res.ok.inj h) h1
          · exact h
    | remove i =>
      simp only [apply, get_remove]
      by_cases h1 : i = id
      · subst h1; simp [(C31.eq_iff i i).2 rfl]
      · simp [h1, if_neg (fun h => h1 ((C31.eq_iff i id).1 h))]
    | sign sk e => simp [apply]

/-- The signatures in a history are real ones, of tokens of sizes below `2 ^ 64`. -/
def Honest (h : List (Action P v)) : Prop :=
  ∀ sk e, .sign sk e ∈ h → C14.SignedBy P v sk e ∧ e.Fits v

theorem signatures_of (sk : Key P v .Secret) (h : List (Action P v)) (hh : Honest h) :
    ∃ hist, C14.Signed P v sk hist ∧ (∀ e ∈ hist, e.Fits v) ∧
      ∀ e, e ∈ hist ↔ .sign sk e ∈ h := by
  induction h with
  | nil => exact ⟨[], .start, by simp, by simp⟩
  | cons a h ih =>
    obtain ⟨hist, h1, h2, h3⟩ := ih fun sk e he => hh sk e (List.mem_cons_of_mem _ he)
    by_cases ha : ∃ e, a = .sign sk e
    · obtain ⟨e, rfl⟩ := ha
      obtain ⟨h4, h5⟩ := hh sk e (by simp)
      refine ⟨e :: hist, .sign h1 h4, ?_, ?_⟩
      · intro e' he'
        rcases List.mem_cons.1 he' with rfl | he'
        · exact h5
        · exact h2 e' he'
      · intro e'
        simp [h3]
    · refine ⟨hist, h1, h2, fun e => ?_⟩
      rw [h3, List.mem_cons]
      constructor
      · exact .inr
      · rintro (rfl | h)
        · exact absurd ⟨e, rfl⟩ ha
        · exact h

/-- Whatever text arrives after whatever history: if it is accepted, then the key named in its footer
is in force, and if this is the public key of `sk`, then `sk` has signed this message with this
footer before, or the text carries a signature of bytes that `sk` has never signed. -/
theorem accepted [Footer F] [Payload E] [MessageDecoding E M] (kid : F → KeyId v .Public)
    (h : List (Action P v)) (hh : Honest h) (s : Bytes) (hs : Fits s)
    (out : ValidatedToken v .Public M F E)
    (hok : verifyWithCache M kid (keysAfter h) s = .ok out) :
    ∃ key, InForce h (kid out.footer) key ∧ ∀ sk : Key P v .Secret, sk.publicKey = key →
      (∃ e, .sign sk e ∈ h ∧ e.suffix = Payload.suffix E ∧ e.implicit = [] ∧
        Footer.decode e.footer = .ok out.footer ∧
        MessageDecoding.decode (Payload.default : E) e.message = .ok out.message) ∨
      ∃ m sig f, IsToken (header v .Public (Payload.suffix E)) s (m ++ sig) f ∧
        Spec.sigValid P v sk.publicKey.key (header v .Public (Payload.suffix E)) m f [] sig ∧
        ∀ e, .sign sk e ∈ h →
          signedBytes P v sk.publicKey.key (header v .Public e.suffix) e.message e.footer
            e.implicit ≠
          signedBytes P v sk.publicKey.key (header v .Public (Payload.suffix E)) m f [] := by
  obtain ⟨t, ht, hok⟩ := Res.bind_eq_ok.1 hok
  obtain ⟨key, hk, hok⟩ := Res.bind_eq_ok.1 hok
  have hfo := C19.verify_footer P t key [] out hok
  have hget : (keysAfter h).get (kid t.unverifiedFooter) = some key := by
    unfold KeyCache.index Res.unwrap at hk
    split at hk
    · rename_i h; rw [h]; cases hk; rfl
    · cases hk
  refine ⟨key, ?_, ?_⟩
  · rw [hfo]; exact (in_force_iff h _ key).1 hget
  rintro sk rfl
  obtain ⟨hist, h1, h2, h3⟩ := signatures_of sk h hh
  obtain ⟨h4, h5, h6⟩ := (C05.parse_iff s t).1 ht
  rcases C14.unforgeable P sk hist h1 h2 t [] (isToken_partsFit h4 hs (by simp [Fits]))
    (by show t.verify M P _ ≠ _ ∧ t.verify M P _ ≠ _; rw [hok]; simp) with
    ⟨e, he, -, hsuf, hf, himp, sig, hp, hl⟩ | ⟨m, sig, hp, hv, hq⟩
  · left
    refine ⟨e, (h3 e).1 he, hsuf, himp, ?_, ?_⟩
    · rw [hf, h5, hfo]; rfl
    · have hl' : sig.length = sigSize v := by rw [hl, sigSize_eq]
      have hok : t.verifyWithAssertions M P sk.publicKey [] = .ok out := hok
      rw [verify_split t sk.publicKey [] e.message ⟨sig, hl'⟩ hp] at hok
      obtain ⟨b, -, hok⟩ := Res.bind_eq_ok.1 hok
      split at hok
      · obtain ⟨m, hm, hok⟩ := Res.bind_eq_ok.1 hok
        cases hok
        rw [h6] at hm
        exact Res.ofExcept_eq_ok.1 hm
      · cases hok
  · right
    refine ⟨m, sig, t.encodedFooter, hp ▸ h4, hv, fun e he heq => hq ?_⟩
    exact List.mem_map.2 ⟨e, (h3 e).2 he, heq⟩

/-- A text that names a key that is not in force is not accepted; the receiver of the documentation
panics on it. -/
theorem not_in_force [Footer F] [Payload E] [MessageDecoding E M] (kid : F → KeyId v .Public)
    (h : List (Action P v)) (s : Bytes) (t : SecuredToken v .Public F E)
    (ht : SecuredToken.parse v .Public F E s = .ok t)
    (hn : ∀ key, ¬ InForce h (kid t.unverifiedFooter) key) :
    verifyWithCache (E := E) (F := F) M kid (keysAfter h) s = .panic := by
  unfold verifyWithCache
  rw [ht]
  have : (keysAfter h).get (kid t.unverifiedFooter) = none := by
    cases hg : (keysAfter h).get (kid t.unverifiedFooter) with
    | none => rfl
    | some key => exact absurd ((in_force_iff _ _ _).1 hg) (hn key)
  simp [KeyCache.index, this, Res.unwrap]

/-- Nothing but the key in force matters: the same text is answered alike after every history in
which the same key is in force, as often as it is sent. -/
theorem same_key_same_answer [Footer F] [Payload E] [MessageDecoding E M] (kid : F → KeyId v .Public)
    (h h' : List (Action P v)) (s : Bytes) (t : SecuredToken v .Public F E)
    (ht : SecuredToken.parse v .Public F E s = .ok t) (key : Key P v .Public)
    (hk : InForce h (kid t.unverifiedFooter) key) (hk' : InForce h' (kid t.unverifiedFooter) key) :
    verifyWithCache (E := E) (F := F) M kid (keysAfter h) s =
      verifyWithCache (E := E) (F := F) M kid (keysAfter h') s := by
  unfold verifyWithCache KeyCache.index
  rw [ht]
  simp [(in_force_iff _ _ _).2 hk, (in_force_iff _ _ _).2 hk']

/-- What is signed while the key is in force is accepted, at every later time at which the key is
(still or again) in force, whatever else was entered, removed or signed. -/
theorem signed_accepted (L : P.Laws) [Footer F] [Payload E] [MessageEncoding E M]
    [MessageDecoding E M] (kid : F → KeyId v .Public) (h : List (Action P v))
    (sk : Key P v .Secret) (b : TokenBuilder v .Public M F E)
    (hkid : InForce h (kid b.tok.footer) sk.publicKey) (m f : Bytes)
    (hm : MessageEncoding.encode b.tok.encoding b.tok.message = .ok m)
    (hm' : MessageDecoding.decode (Payload.default : E) m = .ok b.tok.message)
    (hf : Footer.encode b.tok.footer = some f)
    (hf' : Footer.decode f = .ok b.tok.footer) (hp : b.sign P sk ≠ .panic) :
    ∃ tok, b.sign P sk = .ok tok ∧ verifyWithCache (E := E) M kid (keysAfter h) tok.display = .ok
      { encoding := Payload.default, message := b.tok.message, footer := b.tok.footer } := by
  obtain ⟨tok, hs, hrt⟩ := Res.bind_eq_ok.1 (C02.public_roundtrip P L b sk [] m f hm hm' hf hf' hp)
  obtain ⟨tok', hp, hrt⟩ := Res.bind_eq_ok.1 hrt
  refine ⟨tok, hs, ?_⟩
  have e : tok'.unverifiedFooter = b.tok.footer :=
    (C19.verify_footer P tok' sk.publicKey [] _ hrt).symm
  unfold verifyWithCache KeyCache.index
  rw [hp]
  simp only [Res.ok_bind]
  rw [e, (in_force_iff _ _ _).2 hkid]
  exact hrt

open C50 in
/-- Two keys are entered, a token is signed, the other key is removed: the token is accepted, by
`signed_accepted`, and `accepted` applies to it. After its own key is removed `not_in_force`
applies. -/
example : ∃ (i j : KeyId .V4 .Public) (tok : SecuredToken .V4 .Public (KeyId .V4 .Public) Sample.Raw)
      (e : C14.Event) (h : List (Action Toy.prims .V4)),
    h = [.enter Toy.v4Secret.publicKey, .enter toySecret2.publicKey, .sign Toy.v4Secret e,
      .remove j] ∧
    Honest h ∧ InForce h i Toy.v4Secret.publicKey ∧ Fits tok.display ∧
    verifyWithCache (E := Sample.Raw) Bytes id (keysAfter h) tok.display =
      .ok ⟨⟨⟩, asc "hello", i⟩ ∧
    SecuredToken.parse .V4 .Public (KeyId .V4 .Public) Sample.Raw tok.display = .ok tok ∧
    tok.unverifiedFooter = i ∧ ∀ key, ¬ InForce (h ++ [.remove i]) i key := by
  obtain ⟨i, hi, hi'⟩ := C30.id_spec Toy.v4Secret.publicKey
  obtain ⟨j, hj, hj'⟩ := C30.id_spec toySecret2.publicKey
  have hij : j ≠ i := by
    rintro rfl
    rw [hi'] at hj'
    revert hj'
    decide +kernel
  let b : TokenBuilder .V4 .Public Bytes (KeyId .V4 .Public) Sample.Raw := ⟨⟨⟨⟩, asc "hello", i⟩⟩
  obtain ⟨tok, hs⟩ := Sample.sign_ok .V4 Toy.v4Secret b [] rfl rfl
  let e : C14.Event := ⟨asc "r", asc "hello", tok.encodedFooter, []⟩
  let h : List (Action Toy.prims .V4) := [.enter Toy.v4Secret.publicKey,
    .enter toySecret2.publicKey, .sign Toy.v4Secret e, .remove j]
  have hin : InForce h i Toy.v4Secret.publicKey := by
    refine ⟨[], _, rfl, hi, ?_, ?_⟩
    · simp [Ne.symm hij]
    · intro key hk
      simp at hk
      subst hk
      rw [hj]; simpa using hij
  obtain ⟨tok', h1, h2⟩ := signed_accepted Toy.laws id h Toy.v4Secret b hin (asc "hello") i.id.1
    rfl rfl rfl (dif_pos i.id.2)
    (by show TokenBuilder.signWithAssertions _ _ _ [] ≠ _; rw [hs]; simp)
  have : tok' = tok := by
    have h1 : b.signWithAssertions Toy.prims Toy.v4Secret [] = .ok tok' := h1
    rw [hs] at h1; cases h1; rfl
  subst this
  obtain ⟨m, f, sg, hm, hf, -, htok⟩ := (sign_ok_iff _ _ _ _).1 hs
  have hm' : m = asc "hello" := by cases hm; rfl
  have hf' : f = i.id.1 := by cases hf; rfl
  have hl : f.length < 1000 := by rw [hf', i.id.2]; decide
  have hl' : tok'.payload.length < 1000 := by
    rw [htok, hm', List.length_append, sg.2]; decide
  have he : tok'.encodedFooter = f := by rw [htok]
  refine ⟨i, j, tok', e, h, rfl, ?_, hin, ?_, h2, ?_, by rw [htok]; rfl, ?_⟩
  · intro sk e' hmem
    simp [h] at hmem
    obtain ⟨rfl, rfl⟩ := hmem
    exact ⟨⟨_, _, _, _, _, _, b, tok', hs, rfl, rfl, rfl⟩,
      ⟨sample_partsFit .V4 .Public (asc "hello") tok'.encodedFooter [] (by decide) (by rw [he]; exact hl)
        (by decide)⟩⟩
  · rw [SecuredToken.display_eq]
    exact sample_text_fits .V4 .Public _ _ hl' (by rw [he]; exact hl)
  · rw [C05.parse_iff, SecuredToken.display_eq]
    refine ⟨SecuredToken.isToken_tokenText _ _ _, ?_, by rw [htok]⟩
    rw [htok, hf']
    exact dif_pos i.id.2
  · intro key hk
    rw [inForce_append] at hk
    rcases hk with ⟨h, -⟩ | ⟨-, h, -⟩
    · cases h
    · exact h rfl

end C78

end Pasta
