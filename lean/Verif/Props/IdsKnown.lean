import Verif.Spec.IdsKnown
import Verif.Props.KeyDependent
import Verif.Props.Colliding
import Verif.Props.Samples

/-!
# C105: the ids of the keys in use may be known
-/

namespace Pasta.C105

open C98 (fraction_count fraction_prod fraction_or fraction_mono)
open Trying (fraction_equiv fraction_fst fraction_swap fraction_prod_le exchange)
open C101 (apart viewIn swapElse bound pairs_nonneg)
open C104 (Met blank)
open Hybrid (okOr_bind)

variable {P : Prims} {v : Ver} {r L : Nat} {K : Finset (BytesN 32)}

/-! ### Hiding and opening do not use the hash -/

section

variable (P) (s384 : Bytes → BytesN 48) (b2b : (n : Nat) → Bytes → BytesN n)

theorem hide_hash (a : Hiding v) (key : BytesN 32) (s : Side) (rng : Rng) :
    a.run { P with sha384 := s384, blake2b := b2b } ⟨key⟩ s rng = a.run P ⟨key⟩ s rng := by
  cases a with
  | token M F E iP iM iF encoding message footer i => cases v <;> rfl
  | wrap k hidden =>
    cases v <;> cases k
    · rfl
    · exact okOr_bind (o := Key.p384ScalarFromSlice P (hidden s).1) rfl _ _ _ _ fun _ => rfl
    · rfl
    · exact okOr_bind (C85.edFromKeypair_hash (P := P) s384 b2b (hidden s)) _ _ _ _ fun _ => rfl

theorem look_hash (a : Opening v) (key : BytesN 32) :
    a.run { P with sha384 := s384, blake2b := b2b } key = a.run P key := by
  cases a with
  | decrypt M F E iP iM iF text look i => cases v <;> rfl
  | unwrap k text =>
    show (PieWrappedKey.parse v k text >>= fun w =>
        w.unwrapKey { P with sha384 := s384, blake2b := b2b } ⟨key⟩ >>= fun key => (.ok key.toBytes.1 : Res Bytes)) =
      (PieWrappedKey.parse v k text >>= fun w =>
        w.unwrapKey P ⟨key⟩ >>= fun key => .ok key.toBytes.1)
    congr 1
    funext w
    rw [PieWrappedKey.unwrapKey_eq, PieWrappedKey.unwrapKey_eq]
    have e1 : Spec.pieTag { P with sha384 := s384, blake2b := b2b } v k.kind key w.nonce.1 w.wrappedKey.1 =
      Spec.pieTag P v k.kind key w.nonce.1 w.wrappedKey.1 := by cases v <;> rfl
    have e2 : pieCodeStream { P with sha384 := s384, blake2b := b2b } v key w.nonce.1 =
      pieCodeStream P v key w.nonce.1 := by cases v <;> rfl
    dsimp only
    rw [e1, e2]
    split
    · generalize applyKeystreamN (pieCodeStream P v key w.nonce.1) w.wrappedKey = b
      clear e1 e2
      cases v <;> cases k
      · rfl
      · exact okOr_bind (o := Key.p384ScalarFromSlice P b.1) rfl _ _ _ _ fun _ => rfl
      · rfl
      · exact okOr_bind (C85.edFromKeypair_hash (P := P) s384 b2b b) _ _ _ _ fun _ => rfl
    · rfl

theorem inUse_hash (keys : Fin r → BytesN 32) (D : Derivation v) (c : CipherOf v L) (f : Tags v) (h : Ids v) (s : Side)
    (ask : List (IdGot v L) → Option (IdWish v r)) (k : Nat) :
    ∀ (n o u q m : Nat) (rng : Rng) (issued : List Item) (answers : List (IdGot v L)),
      idInUse { P with sha384 := s384, blake2b := b2b } keys D c f h s ask k n o u q m rng issued answers =
        idInUse P keys D c f h s ask k n o u q m rng issued answers := by
  induction k with
  | zero => intros; rfl
  | succ k ih =>
    intro n o u q m rng issued answers
    simp only [idInUse, hide_hash, Opening.answer, look_hash, ih]

end

theorem inUse_ids (P : Prims) (h' : Ids v) (keys : Fin r → BytesN 32) (D : Derivation v) (c : CipherOf v L) (f : Tags v)
    (h : Ids v) (s : Side) (ask : List (IdGot v L) → Option (IdWish v r)) (k n o u q m : Nat) (rng : Rng)
    (issued : List Item) (answers : List (IdGot v L)) :
    idInUse (P.withIds v h') keys D c f h s ask k n o u q m rng issued answers =
      idInUse P keys D c f h s ask k n o u q m rng issued answers := by
  obtain ⟨a, b, e⟩ := C85.withIds_eq (P := P) h'
  rw [e, inUse_hash]

open Classical in
/-- SHA-384 with other ids. -/
noncomputable def sha (g : Bytes → BytesN 48) (h : Ids .V3) (m : Bytes) : BytesN 48 :=
  if e : ∃ c : KeyBytes .V3, idHashed c = m then
    ⟨(h ⟨m, e⟩).1 ++ (g m).1.drop 33, by simp [(h ⟨m, e⟩).2, (g m).2]⟩
  else g m

open Classical in
/-- BLAKE2b with other ids. -/
noncomputable def blake (g : (n : Nat) → Bytes → BytesN n) (h : Ids .V4) (n : Nat) (m : Bytes) : BytesN n :=
  if e : n = 33 ∧ ∃ c : KeyBytes .V4, idHashed c = m then
    ⟨(h ⟨m, e.2⟩).1, (h ⟨m, e.2⟩).2.trans e.1.symm⟩
  else g n m

theorem withIds_sha (P : Prims) (h : Ids .V3) : P.withIds .V3 h = { P with sha384 := sha P.sha384 h } := rfl

theorem withIds_blake (P : Prims) (h : Ids .V4) : P.withIds .V4 h = { P with blake2b := blake P.blake2b h } := rfl

theorem pr_ids (P : Prims) (h : Ids v) (K : Finset (BytesN 32)) (c : CipherOf v L) (f : Tags v) (D : Derivation v) :
    C101.pr (P.withIds v h) K c f D = (C101.pr P K c f D).withIds v h := by
  cases v with
  | V3 =>
    have e : (C101.pr P K c f D).sha384 = P.sha384 := rfl
    rw [withIds_sha, withIds_sha, e]
    generalize sha P.sha384 h = g
    rfl
  | V4 =>
    have e : (C101.pr P K c f D).blake2b = P.blake2b := rfl
    rw [withIds_blake, withIds_blake, e]
    generalize blake P.blake2b h = g
    rfl

/-! ### The ids -/

/-- What is hashed for the id of a key. -/
def place (key : BytesN 32) : IdInput v := C85.point ⟨.Local, key⟩

theorem place_inj {a b : BytesN 32} (h : place (v := v) a = place b) : a = b := by
  have := C85.point_inj h
  cases this
  rfl

/-- Ids as text. -/
def texts (I : Fin r → BytesN 33) (i : Fin r) : Res Bytes := .ok (C85.textOf (v := v) .Local (I i))

theorem idOf_local (Q : Prims) (h : Ids v) (key : BytesN 32) :
    idOf (Q.withIds v h) v ⟨.Local, key⟩ = .ok (C85.textOf (v := v) .Local (h (place key))) := by
  rw [C85.idOf_ids]
  unfold C85.answer
  have : theKey Q v ⟨.Local, key⟩ = .ok ⟨.Local, key⟩ := by cases v <;> rfl
  rw [this]
  rfl

/-- The key for which this is hashed. -/
noncomputable def keyOf (m : IdInput v) : BytesN 32 :=
  open Classical in if h : ∃ key : BytesN 32, place key = m then h.choose else Plug.k0

theorem keyOf_place (key : BytesN 32) : keyOf (place (v := v) key) = key := by
  have h : ∃ key' : BytesN 32, place (v := v) key' = place key := ⟨key, rfl⟩
  unfold keyOf
  rw [dif_pos h]
  exact place_inj h.choose_spec

/-! ### The game without ids -/

/-- The request in the game without ids: a key is tried where its id is made. -/
noncomputable def plain : IdWish v r → Demand v r
  | .demand a => a
  | .hash m => .derive (keyOf m)

/-- The answer from the answer in the game without ids. -/
def conv (h : Ids v) : Option (IdWish v r) → Found v L → IdGot v L
  | some (.hash m), _ => .hash (h m)
  | some (.demand _), y => .found y
  | none, y => .found y

/-- The answers from the answers in the game without ids. -/
def back (h : Ids v) (ask : List (IdGot v L) → Option (IdWish v r)) :
    List (IdGot v L) → List (Found v L) → List (IdGot v L)
  | acc, [] => acc
  | acc, y :: ys => back h ask (acc ++ [conv h (ask acc) y]) ys

section

variable (h : Ids v) (ask : List (IdGot v L) → Option (IdWish v r))

theorem back_snoc (y : Found v L) (ys : List (Found v L)) : ∀ acc,
    back h ask acc (ys ++ [y]) = back h ask acc ys ++ [conv h (ask (back h ask acc ys)) y] := by
  induction ys with
  | nil => intro acc; rfl
  | cons z ys ih => intro acc; exact ih _

theorem back_grows (ys : List (Found v L)) : ∀ acc, ∃ more, back h ask acc ys = acc ++ more := by
  induction ys with
  | nil => intro acc; exact ⟨[], (List.append_nil _).symm⟩
  | cons z ys ih =>
    intro acc
    obtain ⟨more, e⟩ := ih (acc ++ [conv h (ask acc) z])
    exact ⟨conv h (ask acc) z :: more, by rw [back, e, List.append_assoc, List.singleton_append]⟩

theorem back_split {before after : List (IdGot v L)} {g : IdGot v L} (ys : List (Found v L)) :
    ∀ acc, acc.length ≤ before.length → back h ask acc ys = before ++ g :: after →
      ∃ ys1 y ys2, ys = ys1 ++ y :: ys2 ∧ back h ask acc ys1 = before ∧ g = conv h (ask before) y := by
  induction ys with
  | nil =>
    intro acc hl e
    have := congrArg List.length (show acc = before ++ g :: after from e)
    rw [List.length_append, List.length_cons] at this
    omega
  | cons z ys ih =>
    intro acc hl e
    by_cases he : acc.length = before.length
    · obtain ⟨more, e2⟩ := back_grows h ask ys (acc ++ [conv h (ask acc) z])
      rw [back, e2, List.append_assoc, List.singleton_append] at e
      obtain ⟨e3, e4⟩ := List.append_inj e he
      subst e3
      exact ⟨[], z, ys, rfl, rfl, (List.cons.inj e4).1.symm⟩
    · obtain ⟨ys1, y, ys2, h1, h2, h3⟩ := ih (acc ++ [conv h (ask acc) z]) (by
        rw [List.length_append, List.length_singleton]; omega) e
      exact ⟨z :: ys1, y, ys2, by rw [h1, List.cons_append], h2, h3⟩

/-- The requests in the game without ids. -/
noncomputable def sim (ys : List (Found v L)) : Option (Demand v r) := (ask (back h ask [] ys)).map plain

end

/-- What is asked for with a key is answered with what it derives. -/
theorem derived_answer (P : Prims) (keys : Fin r → BytesN 32) (D : Derivation v) (c : CipherOf v L) (f : Tags v)
    (s : Side) (ask : List (Found v L) → Option (Attempt v r)) {out before after : List (Found v L)} {y : Found v L}
    (e : out = before ++ y :: after) {x : BytesN 32} (hx : ask before = some (.derive x)) (k : Nat) :
    ∀ (n o u q m : Nat) (rng : Rng) (issued : List Item) (answers : List (Found v L)),
      answers.length ≤ before.length → trying P keys D c f s ask k n o u q m rng issued answers = .ok out →
      ∃ d, y = .derived d := by
  have done : ∀ {answers : List (Found v L)}, answers.length ≤ before.length →
      (Res.ok answers : Res _) = .ok out → ∃ d, y = .derived d := by
    intro answers hl h
    cases h
    have := congrArg List.length e
    rw [List.length_append, List.length_cons] at this
    omega
  induction k with
  | zero => intro n o u q m rng issued answers hl h; exact done hl h
  | succ k ih =>
    intro n o u q m rng issued answers hl h
    have next : ∀ {n o u q m rng issued} (z : Found v L), (∀ x, ask answers = some (.derive x) → ∃ d, z = .derived d) →
        trying P keys D c f s ask k n o u q m rng issued (answers ++ [z]) = .ok out → ∃ d, y = .derived d := by
      intro n o u q m rng issued z hz h
      by_cases he : answers.length = before.length
      · obtain ⟨more, e2, -⟩ := C101.grows _ _ _ _ _ _ _ _ _ _ _ _ _ _ _ _ _ h
        rw [e, List.append_assoc, List.singleton_append] at e2
        obtain ⟨e3, e4⟩ := List.append_inj e2 he.symm
        subst e3
        rw [(List.cons.inj e4).1]
        exact hz _ hx
      · exact ih _ _ _ _ _ _ _ _ (by rw [List.length_append, List.length_singleton]; omega) h
    rw [trying] at h
    cases ha : ask answers with
    | none => rw [ha] at h; exact done hl h
    | some a =>
      rw [ha] at h
      cases a with
      | hide i a =>
        cases n with
        | zero => exact done hl h
        | succ n =>
          dsimp only at h
          cases hr : a.run P ⟨keys (i s)⟩ s rng with
          | err x => rw [hr] at h; cases h
          | panic => rw [hr] at h; cases h
          | ok z => rw [hr] at h; exact next _ (fun x hx => by rw [ha] at hx; cases hx) h
      | look i a => cases o with
        | zero => exact done hl h
        | succ o => exact next _ (fun x hx => by rw [ha] at hx; cases hx) h
      | derive x => cases u with
        | zero => exact done hl h
        | succ u => exact next _ (fun x hx => ⟨_, rfl⟩) h
      | cipher x => cases q with
        | zero => exact done hl h
        | succ q => exact next _ (fun x hx => by rw [ha] at hx; cases hx) h
      | mac x z => cases m with
        | zero => exact done hl h
        | succ m => exact next _ (fun x hx => by rw [ha] at hx; cases hx) h

/-- As long as no key in use is tried, it does not matter what the hash makes of those. -/
theorem run_eq (P : Prims) (keys : Fin r → BytesN 32) (D : Derivation v) (c : CipherOf v L) (f : Tags v)
    (h h' : Ids v) (hh : ∀ x, (∀ i, place (keys i) ≠ x) → h' x = h x) (s : Side)
    (ask : List (IdGot v L) → Option (IdWish v r)) (out : List (Found v L))
    (hout : h' = h ∨ ¬ KeyFound keys (demands (sim h ask) keys) out) (k : Nat) :
    ∀ (n o u q m : Nat) (rng : Rng) (issued : List Item) (ys : List (Found v L)),
      trying P keys D c f s (demands (sim h ask) keys) k n o u q m rng issued ys = .ok out →
      idInUse P keys D c f h' s ask k n o u q m rng issued (back h ask [] ys) = .ok (back h ask [] out) := by
  have done : ∀ {ys : List (Found v L)}, (Res.ok ys : Res _) = .ok out →
      (Res.ok (back h ask [] ys) : Res _) = .ok (back h ask [] out) := by
    intro ys e
    cases e
    rfl
  induction k with
  | zero => intro n o u q m rng issued ys e; exact done e
  | succ k ih =>
    intro n o u q m rng issued ys e
    have ed : demands (sim h ask) keys ys = ((ask (back h ask [] ys)).map plain).map (Demand.given keys) := rfl
    rw [trying] at e
    rw [idInUse]
    have hs := fun y => back_snoc h ask y ys []
    cases ha : ask (back h ask [] ys) with
    | none => rw [ed, ha] at e; exact done e
    | some a =>
      rw [ha] at ed hs
      rw [ed] at e
      cases a with
      | demand a =>
        have hs' : ∀ y, back h ask [] ys ++ [.found y] = back h ask [] (ys ++ [y]) := fun y => (hs y).symm
        cases a with
        | hide i a =>
          cases n with
          | zero => exact done e
          | succ n =>
            dsimp only [Option.map, plain, Demand.given] at e ⊢
            cases hr : (a.given keys).run P ⟨keys (i s)⟩ s rng with
            | err x => rw [hr] at e; cases e
            | panic => rw [hr] at e; cases e
            | ok y =>
              rw [hr] at e
              rw [Res.ok_bind, hs']
              exact ih _ _ _ _ _ _ _ _ e
        | look i a => cases o with
          | zero => exact done e
          | succ o => dsimp only; rw [hs']; exact ih _ _ _ _ _ _ _ _ e
        | derive x => cases u with
          | zero => exact done e
          | succ u => dsimp only; rw [hs']; exact ih _ _ _ _ _ _ _ _ e
        | cipher x => cases q with
          | zero => exact done e
          | succ q => dsimp only; rw [hs']; exact ih _ _ _ _ _ _ _ _ e
        | mac x y => cases m with
          | zero => exact done e
          | succ m => dsimp only; rw [hs']; exact ih _ _ _ _ _ _ _ _ e
      | hash x => cases u with
        | zero => exact done e
        | succ u =>
          dsimp only [Option.map, plain, Demand.given] at e
          have hx : h' x = h x := by
            rcases hout with rfl | hout
            · rfl
            refine hh x ?_
            rintro i rfl
            obtain ⟨more, e2, -⟩ := C101.grows _ _ _ _ _ _ _ _ _ _ _ _ _ _ _ _ _ e
            refine hout ⟨ys, more, D (keyOf (place (v := v) (keys i))), i, ?_, ?_⟩
            · rw [e2, List.append_assoc, List.singleton_append]
            · rw [ed]
              show some (Attempt.derive (keyOf (place (v := v) (keys i)))) = _
              rw [keyOf_place]
          have hs' : back h ask [] ys ++ [.hash (h x)] = back h ask [] (ys ++ [.derived (D (keyOf x))]) :=
            (hs _).symm
          dsimp only
          rw [hx, hs']
          exact ih _ _ _ _ _ _ _ _ e

/-! ### Averages -/

instance : Nonempty (BytesN 33) := ⟨C85.someId⟩

theorem average_mono {α β γ : Type} [Fintype α] [Fintype β] [Fintype γ] [Nonempty α] (A : α × β → Prop)
    (B : α × γ → Prop) (b : ℚ) (h : ∀ a, fractionOf (fun x => A (a, x)) ≤ fractionOf (fun x => B (a, x)) + b) :
    fractionOf A ≤ fractionOf B + b := by
  have hc : (0 : ℚ) < Fintype.card α := Nat.cast_pos.2 Fintype.card_pos
  rw [fraction_prod, fraction_prod, div_add' _ _ _ hc.ne']
  refine div_le_div_of_nonneg_right ((Finset.sum_le_sum fun a _ => h a).trans (le_of_eq ?_)) hc.le
  rw [Finset.sum_add_distrib, Finset.sum_const, Finset.card_univ, nsmul_eq_mul, mul_comm]

theorem repeated (r : Nat) :
    fractionOf (fun κ : Fin r → BytesN 32 => ¬ Function.Injective κ) ≤ r * (r - 1) / 2 ^ 257 := by
  have h := C93.card_repeats r
  have hr : (0 : ℚ) < Fintype.card (Fin r → BytesN 32) := Nat.cast_pos.2 Fintype.card_pos
  have hn : ((r * (r - 1) : Nat) : ℚ) = (r : ℚ) * (r - 1) := by
    cases r with
    | zero => simp
    | succ r => push_cast; simp
  rw [fraction_count, div_le_div_iff₀ hr (by positivity), ← hn]
  have h' : ((C82.count fun t : Blocks r => ¬ Function.Injective t) : ℚ) * ((2 ^ 257 : Nat) : ℚ) ≤
      ((r * (r - 1) : Nat) : ℚ) * Fintype.card (Blocks r) := by exact_mod_cast h
  rw [Nat.cast_pow] at h'
  exact h'

/-- The bound for one side. -/
def total (v : Ver) (r n o u q m : Nat) : ℚ :=
  bound v n o q m + (r * u / 2 ^ 256 + r * (r - 1) / 2 ^ 257) + r * (r - 1) / 2 ^ 257

section

variable {ask : List (Found v L) → Option (Demand v r)}

theorem view_upper (hK : ∀ x, x ∈ K) {n : Nat} {X : Finset (Bytes × Bytes)}
    (hhide : ∀ answers i a, ask answers = some (.hide i a) → a.Comparable P L) (d : Tags v) (k o u q m : Nat)
    (s : Side) (B : (Fin r → BytesN 32) → Res (List (Found v L)) → Prop)
    (hB : ∀ keys res, Met ask keys res → B keys res) :
    fractionOf (fun x : Tried v r n L X => B x.1 (viewIn P K d (demands ask x.1) k o u q m s x)) ≤
      fractionOf (fun z : Tried v r n L X × Derivation v =>
        B z.1.1 (apart P K d (demands ask z.1.1) k o u q m s z)) := by
  rw [C104.view_fraction]
  refine fraction_mono fun z hz => ?_
  by_cases h : Met ask z.1.1 (apart P K d (demands ask z.1.1) k o u q m s z)
  · exact hB _ _ h
  · rwa [C104.view_same hK hhide d k o u q m s z h] at hz

theorem view_lower (hK : ∀ x, x ∈ K) {n : Nat} {X : Finset (Bytes × Bytes)}
    (hhide : ∀ answers i a, ask answers = some (.hide i a) → a.Comparable P L) (d : Tags v) (k o u q m : Nat)
    (s : Side) (B : (Fin r → BytesN 32) → Res (List (Found v L)) → Prop)
    (hB : ∀ keys res, B keys res → ¬ Met ask keys res) :
    fractionOf (fun z : Tried v r n L X × Derivation v =>
        B z.1.1 (apart P K d (demands ask z.1.1) k o u q m s z)) ≤
      fractionOf (fun x : Tried v r n L X => B x.1 (viewIn P K d (demands ask x.1) k o u q m s x)) := by
  rw [C104.view_fraction]
  refine fraction_mono fun z hz => ?_
  rw [C104.view_same hK hhide d k o u q m s z (hB _ _ hz)]
  exact hz

/-- The keys are different, and none of them is tried. -/
def Good (ask : List (Found v L) → Option (Demand v r)) (keys : Fin r → BytesN 32) (res : Res (List (Found v L))) :
    Prop := Function.Injective keys ∧ ¬ Met ask keys res

theorem bad_rare (hK : ∀ x, x ∈ K) {n : Nat} {X : Finset (Bytes × Bytes)}
    (hhide : ∀ answers i a, ask answers = some (.hide i a) → a.Comparable P L) (d : Tags v) (k o u q m : Nat) :
    fractionOf (fun z : Tried v r n L X × Derivation v =>
        ¬ Good ask z.1.1 (apart P K d (fun l => (ask l).map blank) k o u q m .left z)) ≤
      r * u / 2 ^ 256 + r * (r - 1) / 2 ^ 257 + r * (r - 1) / 2 ^ 257 := by
  have h1 := C104.met_rare (n := n) (X := X) hK hhide d k o u q m
  have h2 : fractionOf (fun z : Tried v r n L X × Derivation v => ¬ Function.Injective z.1.1) ≤
      r * (r - 1) / 2 ^ 257 := by
    rw [fraction_fst (β := Derivation v) fun x : Tried v r n L X => ¬ Function.Injective x.1,
      ← fraction_swap fun x : Tried v r n L X => ¬ Function.Injective x.1]
    have := pairs_nonneg r
    exact fraction_prod_le _ _ (by positivity) fun _ => repeated r
  refine ((fraction_mono fun z hz => ?_).trans (fraction_or _ _)).trans (add_le_add h1 h2)
  by_contra hn
  exact hz ⟨by by_contra hi; exact hn (.inr hi), fun hm => hn (.inl hm)⟩

/-- From each side to the game where no text contains a key. -/
theorem near (P : Prims) (hK : ∀ x, x ∈ K) (k n o u q m : Nat)
    (hhide : ∀ answers i a, ask answers = some (.hide i a) → a.Comparable P L ∧ a.Fits)
    (hlook : ∀ answers i a, ask answers = some (.look i a) → a.Fits) (s : Side)
    (B : (Fin r → BytesN 32) → Res (List (Found v L)) → Prop) :
    ∃ X₀ : Finset (Bytes × Bytes), ∀ X, X₀ ⊆ X → ∀ d : Tags v,
      fractionOf (fun x : Tried v r n L X => B x.1 (viewIn P K d (demands ask x.1) k o u q m s x) ∨
          ¬ Good ask x.1 (viewIn P K d (demands ask x.1) k o u q m s x)) ≤
        fractionOf (fun z : Tried v r n L X × Derivation v =>
          B z.1.1 (apart P K d (fun l => (ask l).map blank) k o u q m .left z)) + total v r n o u q m ∧
      fractionOf (fun z : Tried v r n L X × Derivation v =>
          B z.1.1 (apart P K d (fun l => (ask l).map blank) k o u q m .left z)) ≤
        fractionOf (fun x : Tried v r n L X => B x.1 (viewIn P K d (demands ask x.1) k o u q m s x) ∧
          Good ask x.1 (viewIn P K d (demands ask x.1) k o u q m s x)) + total v r n o u q m := by
  obtain ⟨X₁, h₁⟩ := C104.sides ask P hK k n o u q m hhide hlook s fun keys res => B keys res ∨ ¬ Good ask keys res
  obtain ⟨X₂, h₂⟩ := C104.sides ask P hK k n o u q m hhide hlook s fun keys res => B keys res ∧ Good ask keys res
  have hc := fun answers i a ha => (hhide answers i a ha).1
  refine ⟨X₁ ∪ X₂, fun X hs d => ?_⟩
  have a1 := h₁ X (Finset.union_subset_left hs) d
  have a2 := h₂ X (Finset.union_subset_right hs) d
  have a3 := bad_rare (n := n) (X := X) hK hc d k o u q m
  have b1 := view_upper (n := n) (X := X) hK hc d k o u q m s (fun keys res => B keys res ∨ ¬ Good ask keys res)
    (fun keys res hm => .inr fun hg => hg.2 hm)
  have b2 := view_lower (n := n) (X := X) hK hc d k o u q m s (fun keys res => B keys res ∧ Good ask keys res)
    (fun keys res h => h.2.2)
  have b3 := fraction_or (fun z : Tried v r n L X × Derivation v =>
      B z.1.1 (apart P K d (fun l => (ask l).map blank) k o u q m .left z))
    (fun z => ¬ Good ask z.1.1 (apart P K d (fun l => (ask l).map blank) k o u q m .left z))
  have b4 : fractionOf (fun z : Tried v r n L X × Derivation v =>
        B z.1.1 (apart P K d (fun l => (ask l).map blank) k o u q m .left z)) ≤
      fractionOf (fun z : Tried v r n L X × Derivation v =>
        B z.1.1 (apart P K d (fun l => (ask l).map blank) k o u q m .left z) ∧
          Good ask z.1.1 (apart P K d (fun l => (ask l).map blank) k o u q m .left z)) +
      fractionOf (fun z : Tried v r n L X × Derivation v =>
        ¬ Good ask z.1.1 (apart P K d (fun l => (ask l).map blank) k o u q m .left z)) := by
    refine (fraction_mono fun z hz => ?_).trans (fraction_or _ _)
    by_cases h : Good ask z.1.1 (apart P K d (fun l => (ask l).map blank) k o u q m .left z)
    · exact .inl ⟨hz, h⟩
    · exact .inr h
  unfold total
  rw [add_assoc (bound v n o q m)]
  generalize (r : ℚ) * u / 2 ^ 256 + r * (r - 1) / 2 ^ 257 + r * (r - 1) / 2 ^ 257 = E at *
  generalize bound v n o q m = C at *
  rw [abs_le] at a1 a2
  constructor <;> linarith [a1.1, a1.2, a2.1, a2.2]

/-- Hardly ever are keys tried or texts opened. -/
theorem near_opened (P : Prims) (hK : ∀ x, x ∈ K) (k n o u q m : Nat)
    (hhide : ∀ answers i a, ask answers = some (.hide i a) → a.Comparable P L ∧ a.Fits)
    (hlook : ∀ answers i a, ask answers = some (.look i a) → a.Fits) (s : Side) :
    ∃ X₀ : Finset (Bytes × Bytes), ∀ X, X₀ ⊆ X → ∀ d : Tags v,
      fractionOf (fun x : Tried v r n L X =>
          (∃ out, viewIn P K d (demands ask x.1) k o u q m s x = .ok out ∧ TextOpened (demands ask x.1) out) ∨
          ¬ Good ask x.1 (viewIn P K d (demands ask x.1) k o u q m s x)) ≤
        n * (n - 1) / 2 ^ 257 + o / 2 ^ (8 * Spec.tagLen v) + (n + o) * m / 2 ^ 256 + total v r n o u q m := by
  obtain ⟨X₁, h₁⟩ := C104.sides ask P hK k n o u q m hhide hlook s fun keys res => ¬ Good ask keys res
  obtain ⟨X₂, h₂⟩ := C104.unopened_apart P hK k n o u q m hhide hlook s
  have hc := fun answers i a ha => (hhide answers i a ha).1
  refine ⟨X₁ ∪ X₂, fun X hs d => ?_⟩
  have a1 := h₁ X (Finset.union_subset_left hs) d
  have a2 := h₂ X (Finset.union_subset_right hs) d
  have a3 := bad_rare (n := n) (X := X) hK hc d k o u q m
  have b1 := view_upper (n := n) (X := X) hK hc d k o u q m s (fun keys res =>
    (∃ out, res = .ok out ∧ TextOpened (demands ask keys) out) ∨ ¬ Good ask keys res)
    (fun keys res hm => .inr fun hg => hg.2 hm)
  have b3 := fraction_or (fun z : Tried v r n L X × Derivation v =>
      ∃ out, apart P K d (demands ask z.1.1) k o u q m s z = .ok out ∧ TextOpened (demands ask z.1.1) out)
    (fun z => ¬ Good ask z.1.1 (apart P K d (demands ask z.1.1) k o u q m s z))
  unfold total
  rw [add_assoc (bound v n o q m)]
  generalize (r : ℚ) * u / 2 ^ 256 + r * (r - 1) / 2 ^ 257 + r * (r - 1) / 2 ^ 257 = E at *
  generalize bound v n o q m = C at *
  rw [abs_le] at a1
  linarith [a1.2]

end

/-! ### The game with ids -/

section

variable {n : Nat} {X : Finset (Bytes × Bytes)}
  {ask : (Fin r → Res Bytes) → List (IdGot v L) → Option (IdWish v r)}

theorem sim_hide {h : Ids v} {ask : List (IdGot v L) → Option (IdWish v r)} {ys : List (Found v L)} {i : Side → Fin r}
    {a : Containing v r} (e : sim h ask ys = some (.hide i a)) :
    ask (back h ask [] ys) = some (.demand (.hide i a)) := by
  unfold sim at e
  obtain ⟨c, h1, h2⟩ := Option.map_eq_some_iff.1 e
  cases c <;> cases h2
  exact h1

theorem sim_look {h : Ids v} {ask : List (IdGot v L) → Option (IdWish v r)} {ys : List (Found v L)} {i : Fin r}
    {a : Opening v} (e : sim h ask ys = some (.look i a)) :
    ask (back h ask [] ys) = some (.demand (.look i a)) := by
  unfold sim at e
  obtain ⟨c, h1, h2⟩ := Option.map_eq_some_iff.1 e
  cases c <;> cases h2
  exact h1

/-- The answers, where all keys are in `K`. -/
noncomputable def real (P : Prims) (K : Finset (BytesN 32)) (d : Tags v)
    (ask : (Fin r → Res Bytes) → List (IdGot v L) → Option (IdWish v r)) (k o u q m : Nat) (s : Side) (h : Ids v)
    (x : Tried v r n L X) : Res (List (IdGot v L)) :=
  idInUse (C101.pr P K x.2.1.2.2 (d.on X x.2.2) x.2.1.2.1) x.1 x.2.1.2.1 x.2.1.2.2 (d.on X x.2.2) h s
    (ask (texts (v := v) fun i => h (place (x.1 i)))) k n o u q m x.2.1.1.tape [] []

theorem ids_eq (P : Prims) (d : Tags v) (h : Ids v) (x : Tried v r n L X) :
    x.ids P d h = texts (v := v) fun i => h (place (x.1 i)) := by
  funext i
  have e : x.idPrims P d h = C101.pr (P.withIds v h) Finset.univ x.2.1.2.2 (d.on X x.2.2) x.2.1.2.1 := rfl
  unfold Tried.ids
  rw [e, pr_ids, idOf_local]
  rfl

theorem idView_eq (P : Prims) (d : Tags v) (k o u q m : Nat) (s : Side) (h : Ids v) (x : Tried v r n L X) :
    x.idView P d ask k o u q m s h = real P Finset.univ d ask k o u q m s h x := by
  have e : x.idPrims P d h = C101.pr (P.withIds v h) Finset.univ x.2.1.2.2 (d.on X x.2.2) x.2.1.2.1 := rfl
  unfold Tried.idView
  rw [ids_eq, e, pr_ids, inUse_ids]
  rfl

/-- The answers in the game without ids, and what they say with ids `I`. -/
noncomputable def ideal (P : Prims) (K : Finset (BytesN 32)) (d : Tags v)
    (ask : (Fin r → Res Bytes) → List (IdGot v L) → Option (IdWish v r)) (k o u q m : Nat) (s : Side)
    (y : Ids v × (Fin r → BytesN 33)) (x : Tried v r n L X) : Res (List (Found v L)) :=
  viewIn P K d (demands (sim y.1 (ask (texts (v := v) y.2))) x.1) k o u q m s x

/-- The answers from those of the game without ids. -/
def backIn (ask : (Fin r → Res Bytes) → List (IdGot v L) → Option (IdWish v r)) (y : Ids v × (Fin r → BytesN 33))
    (res : Res (List (Found v L))) : Res (List (IdGot v L)) :=
  res >>= fun out => .ok (back y.1 (ask (texts (v := v) y.2)) [] out)

open Classical in
/-- Exchange what the hash makes of the keys in use. -/
noncomputable def move (v : Ver) (r n L : Nat) (X : Finset (Bytes × Bytes)) :
    Tried v r n L X × (Ids v × (Fin r → BytesN 33)) ≃ Tried v r n L X × (Ids v × (Fin r → BytesN 33)) :=
  (Equiv.refl (Tried v r n L X)).prodShear fun x =>
    if hi : Function.Injective x.1 then
      exchange (fun i => place (x.1 i)) fun _ _ h => hi (place_inj h)
    else Equiv.refl _

theorem move_apply (x : Tried v r n L X) (y : Ids v × (Fin r → BytesN 33)) (hi : Function.Injective x.1) :
    move v r n L X (x, y) =
      (x, Function.extend (fun i => place (x.1 i)) y.2 y.1, y.1 ∘ fun i => place (x.1 i)) := by
  unfold move
  rw [Equiv.prodShear_apply]
  dsimp only
  rw [dif_pos hi]
  rfl

theorem move_fst (x : Tried v r n L X) (y : Ids v × (Fin r → BytesN 33)) : (move v r n L X (x, y)).1 = x := rfl

/-- Unless keys repeat or are tried, it is the game without ids. -/
theorem real_eq (P : Prims) (hK : ∀ x, x ∈ K)
    (hhide : ∀ ids answers i a, ask ids answers = some (.demand (.hide i a)) → a.Comparable P L) (d : Tags v)
    (k o u q m : Nat) (s : Side) (x : Tried v r n L X) (y : Ids v × (Fin r → BytesN 33))
    (hg : Good (sim y.1 (ask (texts (v := v) y.2))) x.1 (ideal P K d ask k o u q m s y x)) :
    (texts (v := v) fun i => (move v r n L X (x, y)).2.1 (place (x.1 i))) = texts (v := v) y.2 ∧
    real P K d ask k o u q m s (move v r n L X (x, y)).2.1 x =
      backIn ask y (ideal P K d ask k o u q m s y x) := by
  have hp : Function.Injective fun i => place (v := v) (x.1 i) := fun _ _ h => hg.1 (place_inj h)
  have e1 : (fun i => (move v r n L X (x, y)).2.1 (place (x.1 i))) = y.2 := by
    rw [move_apply x y hg.1]
    funext i
    exact hp.extend_apply y.2 y.1 i
  have e2 : ∀ z, (∀ i, place (x.1 i) ≠ z) → (move v r n L X (x, y)).2.1 z = y.1 z := by
    intro z hz
    rw [move_apply x y hg.1]
    exact Function.extend_apply' _ _ _ fun ⟨i, hi⟩ => hz i hi
  refine ⟨by rw [e1], ?_⟩
  obtain ⟨out, ho⟩ := C101.apart_total (ask := demands (sim y.1 (ask (texts (v := v) y.2))) x.1) P hK
    (fun answers i a ha => by
      obtain ⟨b, h1, rfl⟩ := C104.demands_hide ha
      exact hhide _ _ _ _ (sim_hide h1) _) d k o u q m s (x, x.2.1.2.1)
  have ho' : ideal P K d ask k o u q m s y x = .ok out := ho
  have h1 := run_eq _ x.1 _ _ _ y.1 _ e2 s (ask (texts (v := v) y.2)) out (.inr fun hk =>
    hg.2 ⟨out, ho', (C104.found_iff _ _ _).1 hk⟩) k n o u q m _ _ _ ho
  rw [ho']
  unfold real
  rw [e1]
  exact h1

/-- From the game to the one without ids. -/
theorem real_upper (P : Prims) (hK : ∀ x, x ∈ K)
    (hhide : ∀ ids answers i a, ask ids answers = some (.demand (.hide i a)) → a.Comparable P L) (d : Tags v)
    (k o u q m : Nat) (s : Side)
    (A : (Fin r → Res Bytes) → (Fin r → BytesN 32) → Res (List (IdGot v L)) → Prop) :
    fractionOf (fun z : Tried v r n L X × Ids v =>
        A (texts (v := v) fun i => z.2 (place (z.1.1 i))) z.1.1 (real P K d ask k o u q m s z.2 z.1)) ≤
      fractionOf (fun z : (Ids v × (Fin r → BytesN 33)) × Tried v r n L X =>
        A (texts (v := v) z.1.2) z.2.1 (backIn ask z.1 (ideal P K d ask k o u q m s z.1 z.2)) ∨
          ¬ Good (sim z.1.1 (ask (texts (v := v) z.1.2))) z.2.1 (ideal P K d ask k o u q m s z.1 z.2)) := by
  rw [← fraction_fst (β := Fin r → BytesN 33) fun z : Tried v r n L X × Ids v =>
      A (texts (v := v) fun i => z.2 (place (z.1.1 i))) z.1.1 (real P K d ask k o u q m s z.2 z.1),
    ← fraction_equiv (Equiv.prodAssoc (Tried v r n L X) (Ids v) (Fin r → BytesN 33)).symm,
    ← fraction_equiv (move v r n L X), ← fraction_swap]
  refine fraction_mono fun z hz => ?_
  by_cases hg : Good (sim z.1.1 (ask (texts (v := v) z.1.2))) z.2.1 (ideal P K d ask k o u q m s z.1 z.2)
  · obtain ⟨h1, h2⟩ := real_eq P hK hhide d k o u q m s z.2 z.1 hg
    refine .inl ?_
    rw [← h1, ← h2]
    exact hz
  · exact .inr hg

theorem real_lower (P : Prims) (hK : ∀ x, x ∈ K)
    (hhide : ∀ ids answers i a, ask ids answers = some (.demand (.hide i a)) → a.Comparable P L) (d : Tags v)
    (k o u q m : Nat) (s : Side)
    (A : (Fin r → Res Bytes) → (Fin r → BytesN 32) → Res (List (IdGot v L)) → Prop) :
    fractionOf (fun z : (Ids v × (Fin r → BytesN 33)) × Tried v r n L X =>
        A (texts (v := v) z.1.2) z.2.1 (backIn ask z.1 (ideal P K d ask k o u q m s z.1 z.2)) ∧
          Good (sim z.1.1 (ask (texts (v := v) z.1.2))) z.2.1 (ideal P K d ask k o u q m s z.1 z.2)) ≤
      fractionOf (fun z : Tried v r n L X × Ids v =>
        A (texts (v := v) fun i => z.2 (place (z.1.1 i))) z.1.1 (real P K d ask k o u q m s z.2 z.1)) := by
  rw [← fraction_fst (β := Fin r → BytesN 33) fun z : Tried v r n L X × Ids v =>
      A (texts (v := v) fun i => z.2 (place (z.1.1 i))) z.1.1 (real P K d ask k o u q m s z.2 z.1),
    ← fraction_equiv (Equiv.prodAssoc (Tried v r n L X) (Ids v) (Fin r → BytesN 33)).symm,
    ← fraction_equiv (move v r n L X), ← fraction_swap]
  refine fraction_mono fun z hz => ?_
  obtain ⟨h1, h2⟩ := real_eq P hK hhide d k o u q m s z.1 z.2 hz.2
  have := hz.1
  rw [← h1, ← h2] at this
  exact this

/-- Each side is near to one game. -/
theorem one_side (P : Prims) (hK : ∀ x, x ∈ K) (k n o u q m : Nat)
    (hhide : ∀ ids answers i a, ask ids answers = some (.demand (.hide i a)) → a.Comparable P L ∧ a.Fits)
    (hlook : ∀ ids answers i a, ask ids answers = some (.demand (.look i a)) → a.Fits) (s : Side)
    (A : (Fin r → Res Bytes) → (Fin r → BytesN 32) → Res (List (IdGot v L)) → Prop) :
    ∃ X₀ : Finset (Bytes × Bytes), ∀ X, X₀ ⊆ X → ∀ d : Tags v,
      |fractionOf (fun z : Tried v r n L X × Ids v =>
          A (texts (v := v) fun i => z.2 (place (z.1.1 i))) z.1.1 (real P K d ask k o u q m s z.2 z.1)) -
        fractionOf (fun z : (Ids v × (Fin r → BytesN 33)) × (Tried v r n L X × Derivation v) =>
          A (texts (v := v) z.1.2) z.2.1.1 (backIn ask z.1 (apart P K d
            (fun l => (sim z.1.1 (ask (texts (v := v) z.1.2)) l).map blank) k o u q m .left z.2)))| ≤
        total v r n o u q m := by
  classical
  have h := fun y : Ids v × (Fin r → BytesN 33) =>
    near (ask := sim y.1 (ask (texts (v := v) y.2))) P hK k n o u q m
      (fun answers i a ha => hhide _ _ _ _ (sim_hide ha)) (fun answers i a ha => hlook _ _ _ _ (sim_look ha)) s
      fun keys res => A (texts (v := v) y.2) keys (backIn ask y res)
  choose X₀ hX using h
  obtain ⟨Y, -, hY⟩ := C101.all (T := Ids v × (Fin r → BytesN 33))
  refine ⟨Y.biUnion X₀, fun X hs d => ?_⟩
  have hc := fun ids answers i a ha => (hhide ids answers i a ha).1
  have hy := fun y => hX y X ((Finset.subset_biUnion_of_mem X₀ (hY y)).trans hs) d
  have a1 := real_upper (n := n) (X := X) P hK hc d k o u q m s A
  have a2 := real_lower (n := n) (X := X) P hK hc d k o u q m s A
  have b1 := average_mono (fun z : (Ids v × (Fin r → BytesN 33)) × Tried v r n L X =>
      A (texts (v := v) z.1.2) z.2.1 (backIn ask z.1 (ideal P K d ask k o u q m s z.1 z.2)) ∨
        ¬ Good (sim z.1.1 (ask (texts (v := v) z.1.2))) z.2.1 (ideal P K d ask k o u q m s z.1 z.2)) (fun z : (Ids v × (Fin r → BytesN 33)) × (Tried v r n L X × Derivation v) =>
    A (texts (v := v) z.1.2) z.2.1.1 (backIn ask z.1 (apart P K d
      (fun l => (sim z.1.1 (ask (texts (v := v) z.1.2)) l).map blank) k o u q m .left z.2))) _ fun y => (hy y).1
  have b2 := average_mono (fun z : (Ids v × (Fin r → BytesN 33)) × (Tried v r n L X × Derivation v) =>
    A (texts (v := v) z.1.2) z.2.1.1 (backIn ask z.1 (apart P K d
      (fun l => (sim z.1.1 (ask (texts (v := v) z.1.2)) l).map blank) k o u q m .left z.2)))
    (fun z : (Ids v × (Fin r → BytesN 33)) × Tried v r n L X =>
      A (texts (v := v) z.1.2) z.2.1 (backIn ask z.1 (ideal P K d ask k o u q m s z.1 z.2)) ∧
        Good (sim z.1.1 (ask (texts (v := v) z.1.2))) z.2.1 (ideal P K d ask k o u q m s z.1 z.2)) _ fun y => (hy y).2
  rw [abs_le]
  constructor
  · linarith
  · linarith [a1.trans b1]

/-- What is seen with the ids is seen without them. -/
theorem met_back (P : Prims) (d : Tags v) (k o u q m : Nat) (s : Side) (x : Tried v r n L X)
    (y : Ids v × (Fin r → BytesN 33)) {answers : List (IdGot v L)}
    (e : backIn ask y (ideal P K d ask k o u q m s y x) = .ok answers)
    (hm : IdKeyMet x.1 (ask (texts (v := v) y.2)) answers) :
    ¬ Good (sim y.1 (ask (texts (v := v) y.2))) x.1 (ideal P K d ask k o u q m s y x) := by
  intro hg
  cases ho : ideal P K d ask k o u q m s y x with
  | err z => rw [ho] at e; cases e
  | panic => rw [ho] at e; cases e
  | ok out =>
    rw [ho] at e
    obtain ⟨before, after, z, i, e1, e2⟩ := hm
    have e3 : back y.1 (ask (texts (v := v) y.2)) [] out = before ++ z :: after := by
      rw [← e1]
      cases e
      rfl
    obtain ⟨ys1, w, ys2, h1, h2, -⟩ := back_split _ _ out [] (Nat.zero_le _) e3
    have hs : demands (sim y.1 (ask (texts (v := v) y.2))) x.1 ys1 = some (.derive (x.1 i)) := by
      unfold demands sim
      rw [h2]
      rcases e2 with e2 | ⟨p, e2, hp⟩
      · rw [e2]; rfl
      · rw [e2]
        have : p = place (x.1 i) := Subtype.ext hp
        subst this
        show some (Attempt.derive (keyOf (place (v := v) (x.1 i)))) = _
        rw [keyOf_place]
    obtain ⟨w', rfl⟩ := derived_answer _ _ _ _ _ _ _ h1 hs k n o u q m _ _ [] (Nat.zero_le _) ho
    exact hg.2 ⟨out, ho, (C104.found_iff _ _ _).1 ⟨ys1, ys2, w', i, h1, hs⟩⟩

theorem opened_back (P : Prims) (d : Tags v) (k o u q m : Nat) (s : Side) (x : Tried v r n L X)
    (y : Ids v × (Fin r → BytesN 33)) {answers : List (IdGot v L)}
    (e : backIn ask y (ideal P K d ask k o u q m s y x) = .ok answers)
    (hm : IdOpened (ask (texts (v := v) y.2)) answers) :
    ∃ out, ideal P K d ask k o u q m s y x = .ok out ∧
      TextOpened (demands (sim y.1 (ask (texts (v := v) y.2))) x.1) out := by
  cases ho : ideal P K d ask k o u q m s y x with
  | err z => rw [ho] at e; cases e
  | panic => rw [ho] at e; cases e
  | ok out =>
    rw [ho] at e
    obtain ⟨before, after, i, a, bytes, e1, e2⟩ := hm
    have e3 : back y.1 (ask (texts (v := v) y.2)) [] out = before ++ .found (.told (some (.ok bytes))) :: after := by
      rw [← e1]
      cases e
      rfl
    obtain ⟨ys1, w, ys2, h1, h2, h3⟩ := back_split _ _ out [] (Nat.zero_le _) e3
    rw [e2] at h3
    have h4 : w = .told (some (.ok bytes)) := (IdGot.found.inj h3).symm
    subst h4
    refine ⟨out, rfl, ys1, ys2, i, a, bytes, h1, ?_⟩
    unfold demands sim
    rw [h2, e2]
    rfl

end

/-- **C105**: whatever is asked for, where the ids of all keys in use are known and may be used in requests, even in
footers, and whatever is concluded from the ids and the answers: the conclusion is drawn (almost) as often when the
left candidates are used as when the right ones are. -/
theorem advantage (P : Prims) (k n o u q m : Nat)
    (ask : (Fin r → Res Bytes) → List (IdGot v L) → Option (IdWish v r))
    (hhide : ∀ ids answers i a, ask ids answers = some (.demand (.hide i a)) → a.Comparable P L ∧ a.Fits)
    (hlook : ∀ ids answers i a, ask ids answers = some (.demand (.look i a)) → a.Fits)
    (A : (Fin r → Res Bytes) → Res (List (IdGot v L)) → Prop) :
    ∃ X₀ : Finset (Bytes × Bytes), ∀ X, X₀ ⊆ X → ∀ d : Tags v,
      |fractionOf (fun z : Tried v r n L X × Ids v =>
          A (z.1.ids P d z.2) (z.1.idView P d ask k o u q m .left z.2)) -
        fractionOf (fun z : Tried v r n L X × Ids v =>
          A (z.1.ids P d z.2) (z.1.idView P d ask k o u q m .right z.2))| ≤
        6 * (n * (n - 1)) / 2 ^ 256 + 2 * n * q / 2 ^ 256 + 4 * o / 2 ^ (8 * Spec.tagLen v) +
          4 * (n + o) * m / 2 ^ 256 + 2 * r * u / 2 ^ 256 + 2 * (r * (r - 1)) / 2 ^ 256 := by
  obtain ⟨K, hu, hK⟩ := C101.all (T := BytesN 32)
  obtain ⟨X₁, h₁⟩ := one_side P hK k n o u q m hhide hlook .left fun ids _ => A ids
  obtain ⟨X₂, h₂⟩ := one_side P hK k n o u q m hhide hlook .right fun ids _ => A ids
  refine ⟨X₁ ∪ X₂, fun X hs d => ?_⟩
  have hl := h₁ X (Finset.union_subset_left hs) d
  have hr := h₂ X (Finset.union_subset_right hs) d
  simp only [idView_eq, ids_eq, ← hu]
  have e : 6 * ((n : ℚ) * (n - 1)) / 2 ^ 256 + 2 * n * q / 2 ^ 256 + 4 * o / 2 ^ (8 * Spec.tagLen v) +
      4 * (n + o) * m / 2 ^ 256 + 2 * r * u / 2 ^ 256 + 2 * (r * (r - 1)) / 2 ^ 256 =
      2 * total v r n o u q m := by
    have e257 : (2 : ℚ) ^ 257 = 2 * 2 ^ 256 := by rw [← pow_succ']
    have : (2 : ℚ) ^ 256 ≠ 0 := by positivity
    unfold total bound
    rw [e257]
    generalize (2 : ℚ) ^ 256 = C at *
    generalize (2 : ℚ) ^ (8 * Spec.tagLen v) = T at *
    field_simp
    ring
  rw [e]
  generalize total v r n o u q m = B at *
  rw [abs_le] at *
  constructor <;> linarith [hl.1, hl.2, hr.1, hr.2]

/-- Hardly ever is a key in use tried, or its id made again from it, although the ids are known. -/
theorem key_met (P : Prims) (k n o u q m : Nat)
    (ask : (Fin r → Res Bytes) → List (IdGot v L) → Option (IdWish v r))
    (hhide : ∀ ids answers i a, ask ids answers = some (.demand (.hide i a)) → a.Comparable P L ∧ a.Fits)
    (hlook : ∀ ids answers i a, ask ids answers = some (.demand (.look i a)) → a.Fits) (s : Side) :
    ∃ X₀ : Finset (Bytes × Bytes), ∀ X, X₀ ⊆ X → ∀ d : Tags v,
      fractionOf (fun z : Tried v r n L X × Ids v => ∃ answers,
          z.1.idView P d ask k o u q m s z.2 = .ok answers ∧
            IdKeyMet z.1.1 (ask (z.1.ids P d z.2)) answers) ≤
        3 * (n * (n - 1)) / 2 ^ 256 + n * q / 2 ^ 256 + 2 * o / 2 ^ (8 * Spec.tagLen v) +
          2 * (n + o) * m / 2 ^ 256 + r * u / 2 ^ 256 + r * (r - 1) / 2 ^ 256 := by
  classical
  obtain ⟨K, hu, hK⟩ := C101.all (T := BytesN 32)
  obtain ⟨Y, -, hY⟩ := C101.all (T := Ids v × (Fin r → BytesN 33))
  have h := fun y : Ids v × (Fin r → BytesN 33) =>
    near (ask := sim y.1 (ask (texts (v := v) y.2))) P hK k n o u q m
      (fun answers i a ha => hhide _ _ _ _ (sim_hide ha)) (fun answers i a ha => hlook _ _ _ _ (sim_look ha)) s
      fun _ _ => False
  choose X₀ hX using h
  refine ⟨Y.biUnion X₀, fun X hs d => ?_⟩
  have hc := fun ids answers i a ha => (hhide ids answers i a ha).1
  have hy := fun y => (hX y X ((Finset.subset_biUnion_of_mem X₀ (hY y)).trans hs) d).1
  simp only [C98.fraction_none (A := fun _ : Tried v r n L X × Derivation v => False) fun _ h => h, zero_add] at hy
  simp only [idView_eq, ids_eq, ← hu]
  have e : 3 * ((n : ℚ) * (n - 1)) / 2 ^ 256 + n * q / 2 ^ 256 + 2 * o / 2 ^ (8 * Spec.tagLen v) +
      2 * (n + o) * m / 2 ^ 256 + r * u / 2 ^ 256 + r * (r - 1) / 2 ^ 256 = total v r n o u q m := by
    have e257 : (2 : ℚ) ^ 257 = 2 * 2 ^ 256 := by rw [← pow_succ']
    have : (2 : ℚ) ^ 256 ≠ 0 := by positivity
    unfold total bound
    rw [e257]
    generalize (2 : ℚ) ^ 256 = C at *
    generalize (2 : ℚ) ^ (8 * Spec.tagLen v) = T at *
    field_simp
    ring
  rw [e]
  refine (real_upper (n := n) (X := X) P hK hc d k o u q m s fun ids keys res =>
    ∃ answers, res = .ok answers ∧ IdKeyMet keys (ask ids) answers).trans ?_
  refine fraction_prod_le _ _ ?_ fun y => (fraction_mono fun x hx => ?_).trans (hy y)
  · have := C104.bound_nonneg v n o q m
    have h2 := pairs_nonneg r
    unfold total
    positivity
  · refine .inr ?_
    rcases hx with ⟨answers, h1, h2⟩ | hx
    · exact met_back P d k o u q m s x y h1 h2
    · exact hx

/-- Hardly ever is anything opened that was not issued, although the ids are known. -/
theorem unopened (P : Prims) (k n o u q m : Nat)
    (ask : (Fin r → Res Bytes) → List (IdGot v L) → Option (IdWish v r))
    (hhide : ∀ ids answers i a, ask ids answers = some (.demand (.hide i a)) → a.Comparable P L ∧ a.Fits)
    (hlook : ∀ ids answers i a, ask ids answers = some (.demand (.look i a)) → a.Fits) (s : Side) :
    ∃ X₀ : Finset (Bytes × Bytes), ∀ X, X₀ ⊆ X → ∀ d : Tags v,
      fractionOf (fun z : Tried v r n L X × Ids v => ∃ answers,
          z.1.idView P d ask k o u q m s z.2 = .ok answers ∧ IdOpened (ask (z.1.ids P d z.2)) answers) ≤
        4 * (n * (n - 1)) / 2 ^ 256 + n * q / 2 ^ 256 + 3 * o / 2 ^ (8 * Spec.tagLen v) +
          3 * (n + o) * m / 2 ^ 256 + r * u / 2 ^ 256 + r * (r - 1) / 2 ^ 256 := by
  classical
  obtain ⟨K, hu, hK⟩ := C101.all (T := BytesN 32)
  obtain ⟨Y, -, hY⟩ := C101.all (T := Ids v × (Fin r → BytesN 33))
  have h := fun y : Ids v × (Fin r → BytesN 33) =>
    near_opened (ask := sim y.1 (ask (texts (v := v) y.2))) P hK k n o u q m
      (fun answers i a ha => hhide _ _ _ _ (sim_hide ha)) (fun answers i a ha => hlook _ _ _ _ (sim_look ha)) s
  choose X₀ hX using h
  refine ⟨Y.biUnion X₀, fun X hs d => ?_⟩
  have hc := fun ids answers i a ha => (hhide ids answers i a ha).1
  have hy := fun y => hX y X ((Finset.subset_biUnion_of_mem X₀ (hY y)).trans hs) d
  simp only [idView_eq, ids_eq, ← hu]
  have e : (n : ℚ) * (n - 1) / 2 ^ 257 + o / 2 ^ (8 * Spec.tagLen v) + (n + o) * m / 2 ^ 256 +
      total v r n o u q m ≤
      4 * (n * (n - 1)) / 2 ^ 256 + n * q / 2 ^ 256 + 3 * o / 2 ^ (8 * Spec.tagLen v) +
          3 * (n + o) * m / 2 ^ 256 + r * u / 2 ^ 256 + r * (r - 1) / 2 ^ 256 := by
    have e257 : (n : ℚ) * (n - 1) / 2 ^ 257 ≤ n * (n - 1) / 2 ^ 256 :=
      div_le_div_of_nonneg_left (pairs_nonneg n) (by positivity) (pow_le_pow_right₀ (by norm_num) (by norm_num))
    have e1 : 4 * ((n : ℚ) * (n - 1)) / 2 ^ 256 + n * q / 2 ^ 256 + 3 * o / 2 ^ (8 * Spec.tagLen v) +
          3 * (n + o) * m / 2 ^ 256 + r * u / 2 ^ 256 + r * (r - 1) / 2 ^ 256 =
        n * (n - 1) / 2 ^ 256 + o / 2 ^ (8 * Spec.tagLen v) + (n + o) * m / 2 ^ 256 + total v r n o u q m := by
      have e2 : (2 : ℚ) ^ 257 = 2 * 2 ^ 256 := by rw [← pow_succ']
      have : (2 : ℚ) ^ 256 ≠ 0 := by positivity
      unfold total bound
      rw [e2]
      generalize (2 : ℚ) ^ 256 = C at *
      generalize (2 : ℚ) ^ (8 * Spec.tagLen v) = T at *
      field_simp
      ring
    rw [e1]
    exact add_le_add_left (add_le_add_left (add_le_add_left e257 _) _) _
  refine le_trans ?_ e
  refine (real_upper (n := n) (X := X) P hK hc d k o u q m s fun ids keys res =>
    ∃ answers, res = .ok answers ∧ IdOpened (ask ids) answers).trans ?_
  refine fraction_prod_le _ _ ?_ fun y => (fraction_mono fun x hx => ?_).trans (hy y)
  · have := C104.bound_nonneg v n o q m
    have h2 := pairs_nonneg r
    have h3 := pairs_nonneg n
    unfold total
    positivity
  · rcases hx with ⟨answers, h1, h2⟩ | hx
    · exact .inl (opened_back P d k o u q m s x y h1 h2)
    · exact .inr hx

/-- With up to `2 ^ 64` keys in use, `2 ^ 64` texts and `2 ^ 64` openings, `2 ^ 100` keys and ids tried, and
`2 ^ 100` cipher keys and MAC keys, the chances differ by at most `2 ^ -88`. -/
theorem advantage_practical (P : Prims) (k n o u q m : Nat) (hr : r ≤ 2 ^ 64) (hn : n ≤ 2 ^ 64)
    (ho : o ≤ 2 ^ 64) (hu : u ≤ 2 ^ 100) (hq : q ≤ 2 ^ 100) (hm : m ≤ 2 ^ 100)
    (ask : (Fin r → Res Bytes) → List (IdGot v L) → Option (IdWish v r))
    (hhide : ∀ ids answers i a, ask ids answers = some (.demand (.hide i a)) → a.Comparable P L ∧ a.Fits)
    (hlook : ∀ ids answers i a, ask ids answers = some (.demand (.look i a)) → a.Fits)
    (A : (Fin r → Res Bytes) → Res (List (IdGot v L)) → Prop) :
    ∃ X₀ : Finset (Bytes × Bytes), ∀ X, X₀ ⊆ X → ∀ d : Tags v,
      |fractionOf (fun z : Tried v r n L X × Ids v =>
          A (z.1.ids P d z.2) (z.1.idView P d ask k o u q m .left z.2)) -
        fractionOf (fun z : Tried v r n L X × Ids v =>
          A (z.1.ids P d z.2) (z.1.idView P d ask k o u q m .right z.2))| ≤ 1 / 2 ^ 88 := by
  obtain ⟨X₀, h⟩ := advantage P k n o u q m ask hhide hlook A
  refine ⟨X₀, fun X hX d => (h X hX d).trans ?_⟩
  clear h
  have hb := C102.practical_bound v r n o u q m hr hn ho hu hq hm
  have hp : 0 ≤ 2 * (r : ℚ) * u / 2 ^ 256 := by positivity
  have e : 6 * ((n : ℚ) * (n - 1)) / 2 ^ 256 + 2 * n * q / 2 ^ 256 + 4 * o / 2 ^ (8 * Spec.tagLen v) +
      4 * (n + o) * m / 2 ^ 256 + 2 * r * u / 2 ^ 256 + 2 * (r * (r - 1)) / 2 ^ 256 =
      2 * (3 * ((n : ℚ) * (n - 1)) / 2 ^ 256 + n * q / 2 ^ 256 + 2 * o / 2 ^ (8 * Spec.tagLen v) +
      2 * (n + o) * m / 2 ^ 256 + 2 * r * u / 2 ^ 256 + r * (r - 1) / 2 ^ 256) - 2 * (r : ℚ) * u / 2 ^ 256 := by
    ring
  have e88 : (1 : ℚ) / 2 ^ 88 = 2 * (1 / 2 ^ 89) := by norm_num
  rw [e, e88]
  linarith

/-! ### The game is played -/

/-- The ids that are told are those of the keys in use, and the hash asked about is the one that makes them: whoever
tries a key in use sees its id. -/
theorem told (P : Prims) (d : Tags v) {n : Nat} {X : Finset (Bytes × Bytes)} (h : Ids v) (x : Tried v r n L X)
    (i : Fin r) (m : IdInput v) (hm : m.1 = idHashed (v := v) ⟨.Local, x.1 i⟩) :
    ∃ id : KeyId v .Local, id.id = h m ∧ x.ids P d h i = id.display ∧
      (⟨x.1 i⟩ : Key (x.idPrims P d h) v .Local).toId = .ok id := by
  have hp : m = place (x.1 i) := Subtype.ext hm
  subst hp
  have e : x.idPrims P d h = C101.pr (P.withIds v h) Finset.univ x.2.1.2.2 (d.on X x.2.2) x.2.1.2.1 := rfl
  refine ⟨⟨h (place (x.1 i))⟩, rfl, ?_, ?_⟩
  · rw [ids_eq, KeyId.display_eq]
    rfl
  · rw [e, pr_ids]
    obtain ⟨id, h1, h2⟩ := C30.id_spec
      (⟨x.1 i⟩ : Key ((C101.pr P Finset.univ x.2.1.2.2 (d.on X x.2.2) x.2.1.2.1).withIds v h) v .Local)
    rw [h1]
    have h3 := C85.idBytes_ids (P := C101.pr P Finset.univ x.2.1.2.2 (d.on X x.2.2) x.2.1.2.1) h
      ⟨.Local, x.1 i⟩
    have h4 : id.id = h (place (x.1 i)) := Subtype.ext (h2.trans h3)
    cases id
    cases h4
    rfl

theorem back_length (h : Ids v) (ask : List (IdGot v L) → Option (IdWish v r)) (ys : List (Found v L)) :
    ∀ acc, (back h ask acc ys).length = acc.length + ys.length := by
  induction ys with
  | nil => intro acc; rfl
  | cons y ys ih =>
    intro acc
    rw [back, ih, List.length_append, List.length_singleton, List.length_cons]
    omega

/-- Nothing breaks the game off: with `k` requests and `k` of each kind allowed, there are `k` answers
unless nothing more is asked. -/
theorem runs (P : Prims) (k n o u q m : Nat) (hn : k ≤ n) (ho : k ≤ o) (hu : k ≤ u) (hq : k ≤ q)
    (hm : k ≤ m) (ask : (Fin r → Res Bytes) → List (IdGot v L) → Option (IdWish v r))
    (hhide : ∀ ids answers i a, ask ids answers = some (.demand (.hide i a)) → a.Comparable P L)
    (X : Finset (Bytes × Bytes)) (d : Tags v) (s : Side) (h : Ids v) (x : Tried v r n L X) :
    ∃ answers, x.idView P d ask k o u q m s h = .ok answers ∧
      (answers.length = k ∨ answers.length < k ∧ ask (x.ids P d h) answers = none) := by
  rw [idView_eq, ids_eq]
  unfold real
  generalize (texts (v := v) fun i => h (place (x.1 i))) = ids
  obtain ⟨out, h1, h2⟩ := C101.runs P k n o u q m hn ho hu hq hm (demands (sim h (ask ids)) x.1)
    (fun answers i a ha => by
      obtain ⟨b, h1, rfl⟩ := C104.demands_hide ha
      exact hhide _ _ _ _ (sim_hide h1) _) X d s x
  refine ⟨_, run_eq _ x.1 _ _ _ h h (fun _ _ => rfl) s (ask ids) out (.inl rfl) k n o u q m _ _ [] h1, ?_⟩
  rw [back_length, List.length_nil, Nat.zero_add]
  refine h2.imp id fun h3 => ⟨h3.1, ?_⟩
  have h4 := h3.2
  unfold demands sim at h4
  exact Option.map_eq_none_iff.1 (Option.map_eq_none_iff.1 h4)

/-! ### A case: the id in the footer -/

/-- What the token contains: left, the second key; right, zeros. -/
def contained (keys : Fin 2 → BytesN 32) : Side → Bytes
  | .left => (keys 1).1
  | .right => List.replicate 32 0

theorem contained_length (keys : Fin 2 → BytesN 32) (s : Side) : (contained keys s).length = 32 := by
  cases s
  · exact (keys 1).2
  · exact List.length_replicate

/-- A token is made with the first key, with the id of that key in its footer. From the token a key is guessed, its id
is made, and with a text made from everything seen, the second key is to unwrap it. -/
def stated (v : Ver) (L : Nat) (guess : Told → IdInput v) (make : Told → BytesN 33 → Bytes) (ids : Fin 2 → Res Bytes) :
    List (IdGot v L) → Option (IdWish v 2)
  | [] => match ids 0 with
    | .ok id => if id.length = 51 then
        some (.demand (.hide (fun _ => 0)
          (.token Bytes Bytes Sample.Raw inferInstance inferInstance inferInstance (fun _ _ => ⟨⟩) contained id [])))
      else none
    | _ => none
  | [.found (.told t)] => some (.hash (guess t))
  | [.found (.told t), .hash b] => some (.demand (.look 1 (.unwrap .Local (make t b))))
  | _ => none

section

variable (guess : Told → IdInput v) (make : Told → BytesN 33 → Bytes)

theorem stated_hides (P : Prims) (hL : 32 ≤ L) (ids : Fin 2 → Res Bytes) (answers : List (IdGot v L))
    (i : Side → Fin 2) (a : Containing v 2) (h : stated v L guess make ids answers = some (.demand (.hide i a))) :
    a.Comparable P L ∧ a.Fits := by
  unfold stated at h
  split at h
  · split at h
    · split at h
      · rename_i id _ hid
        cases h
        refine ⟨fun x => ⟨⟨fun s => contained (x s).1 (x s).2, fun s => rfl, ?_, ?_, ?_⟩, id, rfl⟩,
          fun x => ⟨?_, ?_, ?_, ?_⟩⟩
        · rw [contained_length, contained_length]
        · rw [contained_length]; exact hL
        · unfold Spec.Fits; rw [contained_length]; norm_num
        · unfold Spec.Fits; cases v <;> decide
        · unfold Spec.Fits; norm_num
        · intro s m hm
          cases hm
          rw [contained_length]; norm_num
        · intro f hf
          cases hf
          unfold Spec.Fits; rw [hid]; norm_num
      · cases h
    · cases h
  all_goals cases h

theorem stated_looks (ids : Fin 2 → Res Bytes) (answers : List (IdGot v L)) (i : Fin 2) (a : Opening v)
    (h : stated v L guess make ids answers = some (.demand (.look i a))) : a.Fits := by
  unfold stated at h
  split at h
  · split at h
    · split at h <;> cases h
    · cases h
  · cases h
  · cases h; trivial
  · cases h

/-- The hypotheses of `advantage_practical` are met, -/
example (P : Prims) (hL : 32 ≤ L) (A : (Fin 2 → Res Bytes) → Res (List (IdGot v L)) → Prop) :=
  advantage_practical P 3 1 1 1 0 0 (by norm_num) (by norm_num) (by norm_num) (by norm_num) (by norm_num)
    (by norm_num) _ (stated_hides guess make P hL) (stated_looks guess make) A

/-- … those of `key_met` and `unopened`, -/
example (P : Prims) (hL : 32 ≤ L) (s : Side) :=
  key_met P 3 1 1 1 0 0 _ (stated_hides guess make P hL) (stated_looks guess make) s

example (P : Prims) (hL : 32 ≤ L) (s : Side) :=
  unopened P 3 1 1 1 0 0 _ (stated_hides guess make P hL) (stated_looks guess make) s

/-- … and those of `runs`. -/
example (P : Prims) (hL : 32 ≤ L) (X : Finset (Bytes × Bytes)) (d : Tags v) (s : Side) (h : Ids v)
    (x : Tried v 2 3 L X) :=
  runs P 3 3 3 3 3 3 (Nat.le_refl _) (Nat.le_refl _) (Nat.le_refl _) (Nat.le_refl _) (Nat.le_refl _)
    (stated v L guess make) (fun ids answers i a h => (stated_hides guess make P hL ids answers i a h).1) X d s h x

/-- The token is really asked for, and its footer is the id of the first key. -/
example (P : Prims) (d : Tags v) {n : Nat} {X : Finset (Bytes × Bytes)} (h : Ids v) (x : Tried v 2 n L X) :
    ∃ (id : KeyId v .Local) (text : Bytes), id.id = h (place (x.1 0)) ∧ id.display = .ok text ∧
      stated v L guess make (x.ids P d h) [] = some (.demand (.hide (fun _ => 0)
        (.token Bytes Bytes Sample.Raw inferInstance inferInstance inferInstance (fun _ _ => ⟨⟩) contained text
          []))) := by
  obtain ⟨id, h1, h2, -⟩ := told P d h x 0 (place (x.1 0)) rfl
  have h3 := KeyId.display_eq id
  rw [h3] at h2
  refine ⟨id, _, h1, h3, ?_⟩
  unfold stated
  dsimp only
  rw [h2]
  dsimp only
  rw [if_pos]
  unfold Spec.paserkText
  rw [List.length_append, base64url_length, id.id.2]
  cases v <;> rfl

/-- Whether a key in use is met is not decided beforehand. -/
example (ids : Fin 2 → Res Bytes) (t : Told) (b : BytesN 33) (key : BytesN 32) :
    IdKeyMet (fun _ => key) (stated v L (fun _ => place key) make ids) [.found (.told t), .hash b] :=
  ⟨[.found (.told t)], [], .hash b, 0, rfl, .inr ⟨_, rfl, rfl⟩⟩

end

end Pasta.C105
