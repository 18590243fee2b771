import Mathlib.Tactic.Ring
import Verif.Spec.Computing
import Verif.Props.Veiling
import Verif.Props.Probing

/-! # Lemmas about the distinguishing game with a known cipher -/

namespace Pasta.C99

variable {P : Prims} {v : Ver} {L : Nat} {R W : Type}

/-! ### A session in short -/

/-- What is done next: hide something, or compute the cipher. -/
abbrev Strat (v : Ver) (L : Nat) (R : Type) := List (Calculated v L) → Option (R ⊕ BytesN 32)

/-- What happened: the answers, what was hidden with which nonces, and for which keys the cipher was
computed. -/
structure Run (v : Ver) (L : Nat) (R : Type) where
  seen : List (Calculated v L)
  trace : List (R × BytesN 32)
  keys : List (BytesN 32)

/-- A session; `txt` makes the texts, from a nonce and something else that is drawn with it. -/
def run (co : Strat v L R) (c : CipherOf v L) (txt : R → BytesN 32 → W → Bytes) :
    (k q : Nat) → List (BytesN 32 × W) → List (Calculated v L) → Run v L R
  | 0, _, _, seen => ⟨seen, [], []⟩
  | k + 1, q, l, seen =>
    match co seen with
    | none => ⟨seen, [], []⟩
    | some (.inl r) =>
      match l with
      | [] => ⟨seen, [], []⟩
      | (n, w) :: l =>
        let o := run co c txt k q l (seen ++ [.text (txt r n w)])
        ⟨o.seen, (r, n) :: o.trace, o.keys⟩
    | some (.inr x) =>
      match q with
      | 0 => ⟨seen, [], []⟩
      | q + 1 =>
        let o := run co c txt k q l (seen ++ [.cipher (c x)])
        ⟨o.seen, o.trace, x :: o.keys⟩

/-- Two sessions are the same if the texts and the ciphers asked for are. -/
theorem run_congr {W' : Type} (co : Strat v L R) (c c' : CipherOf v L) (txt : R → BytesN 32 → W → Bytes)
    (txt' : R → BytesN 32 → W' → Bytes) :
    ∀ (k q : Nat) (l : List (BytesN 32 × W)) (l' : List (BytesN 32 × W')) (seen : List (Calculated v L)),
      l.map Prod.fst = l'.map Prod.fst →
      (∀ x ∈ (run co c txt k q l seen).keys, c' x = c x) →
      (∀ y ∈ (run co c txt k q l seen).trace.zip ((l.map Prod.snd).zip (l'.map Prod.snd)),
        txt' y.1.1 y.1.2 y.2.2 = txt y.1.1 y.1.2 y.2.1) →
      run co c' txt' k q l' seen = run co c txt k q l seen := by
  intro k
  induction k with
  | zero => intros; rfl
  | succ k ih =>
    intro q l l' seen hl hk ht
    unfold run at hk ht ⊢
    cases hc : co seen with
    | none => rfl
    | some d =>
      cases d with
      | inl r =>
        cases l with
        | nil =>
          cases l' with
          | nil => rfl
          | cons y l' => cases hl
        | cons y l =>
          cases l' with
          | nil => cases hl
          | cons y' l' =>
            obtain ⟨n, w⟩ := y
            obtain ⟨n', w'⟩ := y'
            rw [hc] at hk ht
            simp only [List.map_cons, List.cons.injEq] at hl
            obtain ⟨rfl, hl⟩ := hl
            dsimp only at hk ht ⊢
            simp only [List.map_cons, List.zip_cons_cons] at ht
            have h1 := ht _ List.mem_cons_self
            dsimp only at h1
            rw [h1, ih q l l' _ hl hk fun y hy => ht y (List.mem_cons_of_mem _ hy)]
      | inr x =>
        cases q with
        | zero => rfl
        | succ q =>
          rw [hc] at hk ht
          dsimp only at hk ht ⊢
          rw [hk x List.mem_cons_self, ih q l l' _ hl (fun y hy => hk y (List.mem_cons_of_mem _ hy)) ht]

theorem trace_length (co : Strat v L R) (c : CipherOf v L) (txt : R → BytesN 32 → W → Bytes) :
    ∀ (k q : Nat) (l : List (BytesN 32 × W)) (seen : List (Calculated v L)),
      (run co c txt k q l seen).trace.length ≤ l.length := by
  intro k
  induction k with
  | zero => intros; exact Nat.zero_le _
  | succ k ih =>
    intro q l seen
    unfold run
    cases co seen with
    | none => exact Nat.zero_le _
    | some d =>
      cases d with
      | inl r =>
        cases l with
        | nil => exact Nat.zero_le _
        | cons y l => exact Nat.succ_le_succ (ih _ _ _)
      | inr x =>
        cases q with
        | zero => exact Nat.zero_le _
        | succ q => exact ih _ _ _

/-! ### The cipher under one key -/

/-- The key stream, from the cipher under the key. -/
def one (P : Prims) (w : OneCipher v L) (iv : BytesN (ivLen v)) : Nat → UInt8 :=
  stream (P.withCiphers (CipherOf.ciphers P (fun _ => w : CipherOf v L))) v ⟨List.replicate 32 0, rfl⟩ iv

theorem stream_one (c : CipherOf v L) (ek : BytesN 32) (iv : BytesN (ivLen v)) :
    stream (P.withCiphers (c.ciphers P)) v ek iv = one P (c ek) iv := by cases v <;> rfl

/-- The text of a request, from the cipher under the key that is used. -/
def textOne (P : Prims) (iv : Ivs v) (s : Side) (k : HidingCore) (n : BytesN 32) (w : OneCipher v L) :
    Bytes :=
  k.shape n (applyKeystream (one P w (iv (k.tag, n))) (k.hidden s))

/-- Change the cipher under a key so that the key stream changes by `d`. -/
def maskOne : {v : Ver} → BytesN (ivLen v) → (Nat → UInt8) → OneCipher v L → OneCipher v L
  | .V3, iv, d, w => C82.shift (v := .V3) (L := L) (fun _ => some (iv, d)) (fun _ => w)
      ⟨List.replicate 32 0, rfl⟩
  | .V4, iv, d, w => C82.shift (v := .V4) (L := L) (fun _ => some (iv, d)) (fun _ => w)
      ⟨List.replicate 32 0, rfl⟩

theorem maskOne_maskOne (iv : BytesN (ivLen v)) (d : Nat → UInt8) (w : OneCipher v L) :
    maskOne iv d (maskOne iv d w) = w := by
  cases v
  · exact congrFun (C82.shift_shift (v := .V3) (L := L) (fun _ => some (iv, d)) (fun _ => w))
      ⟨List.replicate 32 0, rfl⟩
  · exact congrFun (C82.shift_shift (v := .V4) (L := L) (fun _ => some (iv, d)) (fun _ => w))
      ⟨List.replicate 32 0, rfl⟩

theorem text_mask (iv : Ivs v) (s : Side) (k : HidingCore) (hk : k.Ok L) (n : BytesN 32)
    (w : OneCipher v L) :
    textOne P iv (C82.other s) k n (maskOne (iv (k.tag, n)) (C82.diff k) w) = textOne P iv s k n w := by
  cases v
  · exact C82.out_swap (v := .V3) (L := L) iv (fun _ => some (iv (k.tag, n), C82.diff k)) (fun _ => w)
      (fun _ => ⟨List.replicate 32 0, rfl⟩) s n k hk rfl
  · exact C82.out_swap (v := .V4) (L := L) iv (fun _ => some (iv (k.tag, n), C82.diff k)) (fun _ => w)
      (fun _ => ⟨List.replicate 32 0, rfl⟩) s n k hk rfl

/-! ### Counting -/

/-- Games whose outcomes agree after a change that can be undone knowing the outcome. -/
theorem count_transfer {Y O : Type} [Fintype Y] (A G : O → Prop) (F F' : Y → O) (f : O → Y → Y)
    (hinv : ∀ o y, G o → f o (f o y) = y) (h : ∀ y, G (F y) → F' (f (F y) y) = F y) :
    (C82.count fun y => G (F y) ∧ A (F y)) ≤ C82.count fun y => G (F' y) ∧ A (F' y) := by
  classical
  unfold C82.count
  refine Finset.card_le_card_of_injOn (fun y => f (F y) y) ?_ ?_
  · intro y hy
    have hy := (@Finset.mem_filter _ _ (fun _ => Classical.propDecidable _) _ _).1 hy |>.2
    refine (@Finset.mem_filter _ _ (fun _ => Classical.propDecidable _) _ _).2 ⟨Finset.mem_univ _, ?_⟩
    show G _ ∧ A _
    rw [h y hy.1]
    exact hy
  · intro y hy y' hy' e
    have hy := (@Finset.mem_filter _ _ (fun _ => Classical.propDecidable _) _ _).1 hy |>.2
    have hy' := (@Finset.mem_filter _ _ (fun _ => Classical.propDecidable _) _ _).1 hy' |>.2
    dsimp only at e
    have e1 : F y = F y' := by rw [← h y hy.1, e, h y' hy'.1]
    rw [← e1] at e
    have := congrArg (f (F y)) e
    rwa [hinv _ _ hy.1, hinv _ _ hy.1] at this

theorem count_not {Y : Type} [Fintype Y] (G : Y → Prop) :
    C82.count G + (C82.count fun y => ¬ G y) = Fintype.card Y := by
  classical
  unfold C82.count
  have := Finset.card_filter_add_card_filter_not (s := (Finset.univ : Finset Y)) G
  rw [Finset.card_univ] at this
  convert this

theorem count_none {Y : Type} [Fintype Y] {A : Y → Prop} (h : ∀ y, ¬ A y) : C82.count A = 0 := by
  classical
  unfold C82.count
  rw [Finset.card_eq_zero]
  exact @Finset.filter_false_of_mem _ _ (fun _ => Classical.propDecidable _) _ fun y _ => h y

/-- A value that is only drawn at one point hardly ever is what has been fixed elsewhere. -/
theorem count_hit {X T : Type} [Fintype X] [DecidableEq X] [Fintype T] (p : X) (g : (X → T) → T)
    (hg : ∀ f t, g (Function.update f p t) = g f) :
    (C82.count fun f : X → T => f p = g f) * Fintype.card T ≤ Fintype.card (X → T) := by
  classical
  unfold C82.count
  rw [← Finset.card_univ, ← Finset.card_univ, ← Finset.card_product]
  refine Finset.card_le_card_of_injOn (fun x => Function.update x.1 p x.2)
    (fun _ _ => Finset.mem_coe.2 (Finset.mem_univ _)) ?_
  rintro ⟨f, t⟩ hf ⟨f', t'⟩ hf' e
  have hf := (@Finset.mem_filter _ _ (fun _ => Classical.propDecidable _) _ _).1
    (Finset.mem_product.1 hf).1 |>.2
  have hf' := (@Finset.mem_filter _ _ (fun _ => Classical.propDecidable _) _ _).1
    (Finset.mem_product.1 hf').1 |>.2
  dsimp only at e hf hf'
  have e1 : t = t' := by
    have := congrFun e p
    rwa [Function.update_self, Function.update_self] at this
  have e2 : g f = g f' := by rw [← hg f t, e, hg]
  have e3 : f = f' := by
    funext x
    by_cases hx : x = p
    · rw [hx, hf, hf', e2]
    · have := congrFun e x
      rwa [Function.update_of_ne hx, Function.update_of_ne hx] at this
  rw [e1, e3]

/-- Values at different points are hardly ever equal, or among those given. -/
theorem count_coll {X T : Type} [Fintype X] [DecidableEq X] [Fintype T] [DecidableEq T] (av : List T) :
    ∀ ps : List X, ps.Nodup →
    (C82.count fun f : X → T => ¬ ((ps.map f).Nodup ∧ ∀ p ∈ ps, f p ∉ av)) * (2 * Fintype.card T) ≤
      (ps.length * (ps.length - 1) + 2 * (ps.length * av.length)) * Fintype.card (X → T) := by
  intro ps
  induction ps with
  | nil =>
    intro _
    have : (C82.count fun f : X → T => ¬ ((([] : List X).map f).Nodup ∧ ∀ p ∈ ([] : List X), f p ∉ av)) =
        0 := count_none fun f h => h ⟨List.nodup_nil, fun p hp => (nomatch hp)⟩
    rw [this, Nat.zero_mul]
    exact Nat.zero_le _
  | cons p ps ih =>
    intro h
    obtain ⟨hp, hps⟩ := List.nodup_cons.1 h
    have hany : ∀ l : List ((X → T) → T), (∀ g ∈ l, ∀ f t, g (Function.update f p t) = g f) →
        (C82.count fun f : X → T => ∃ g ∈ l, f p = g f) * Fintype.card T ≤
          l.length * Fintype.card (X → T) := by
      intro l
      induction l with
      | nil =>
        intro _
        have : (C82.count fun f : X → T => ∃ g ∈ ([] : List ((X → T) → T)), f p = g f) = 0 :=
          count_none fun f ⟨g, hg, _⟩ => (nomatch hg)
        rw [this, Nat.zero_mul]
        exact Nat.zero_le _
      | cons g l ihl =>
        intro hl
        have h1 := ihl fun g' hg' => hl g' (List.mem_cons_of_mem _ hg')
        have h2 := count_hit p g (hl g List.mem_cons_self)
        have h3 : (C82.count fun f : X → T => ∃ g' ∈ g :: l, f p = g' f) ≤
            (C82.count fun f : X → T => f p = g f) + C82.count fun f : X → T => ∃ g' ∈ l, f p = g' f := by
          refine (C83.count_mono fun f hf => ?_).trans (C83.count_or _ _)
          obtain ⟨g', hg', e⟩ := hf
          rcases List.mem_cons.1 hg' with rfl | hg'
          · exact .inl e
          · exact .inr ⟨g', hg', e⟩
        have h4 := Nat.mul_le_mul_right (Fintype.card T) h3
        rw [Nat.add_mul] at h4
        rw [List.length_cons, Nat.succ_mul]
        omega
    have h1 := hany (av.map (fun t _ => t) ++ ps.map fun p' f => f p') (by
      intro g hg f t
      rcases List.mem_append.1 hg with hg | hg
      · obtain ⟨_, _, rfl⟩ := List.mem_map.1 hg; rfl
      · obtain ⟨p', hp', rfl⟩ := List.mem_map.1 hg
        exact Function.update_of_ne (fun e : p' = p => hp (e ▸ hp')) _ _)
    have h2 := ih hps
    have h3 : (C82.count fun f : X → T => ¬ (((p :: ps).map f).Nodup ∧ ∀ p' ∈ p :: ps, f p' ∉ av)) ≤
        (C82.count fun f : X → T => ∃ g ∈ av.map (fun t _ => t) ++ ps.map fun p' f => f p', f p = g f) +
          C82.count fun f : X → T => ¬ ((ps.map f).Nodup ∧ ∀ p ∈ ps, f p ∉ av) := by
      refine (C83.count_mono fun f hf => ?_).trans (C83.count_or _ _)
      by_contra hn
      rw [not_or, not_not] at hn
      obtain ⟨hn, h5, h6⟩ := hn
      apply hf
      refine ⟨List.nodup_cons.2 ⟨fun hm => ?_, h5⟩, fun p' hp' hm => ?_⟩
      · obtain ⟨p', hp', e⟩ := List.mem_map.1 hm
        exact hn ⟨fun f => f p', List.mem_append_right _ (List.mem_map.2 ⟨p', hp', rfl⟩), e.symm⟩
      · rcases List.mem_cons.1 hp' with rfl | hp'
        · exact hn ⟨fun _ => f p', List.mem_append_left _ (List.mem_map.2 ⟨f p', hm, rfl⟩), rfl⟩
        · exact h6 p' hp' hm
    rw [List.length_append, List.length_map, List.length_map] at h1
    have h4 := Nat.mul_le_mul_right (2 * Fintype.card T) h3
    rw [Nat.add_mul] at h4
    have h5 := Nat.mul_le_mul_left 2 h1
    rw [Nat.mul_left_comm] at h5
    refine h4.trans ((Nat.add_le_add h5 h2).trans (le_of_eq ?_))
    rw [List.length_cons, Nat.add_sub_cancel]
    cases ps.length with
    | zero => simp only [Nat.zero_mul, Nat.zero_add, Nat.mul_zero, Nat.one_mul, Nat.add_zero]; ring
    | succ m => rw [Nat.add_sub_cancel]; ring

/-! ### Under one key -/

/-- The random bytes, the cipher keys, the cipher, and for every request another cipher. -/
abbrev Apart (v : Ver) (n L : Nat) := Blocks n × EncKeys × CipherOf v L × (Fin n → OneCipher v L)

/-- Each nonce with its other cipher. -/
def pairs {n : Nat} (b : Blocks n) (S : Fin n → OneCipher v L) : List (BytesN 32 × OneCipher v L) :=
  List.ofFn fun i => (b i, S i)

theorem pairs_fst {n : Nat} (b : Blocks n) (S : Fin n → OneCipher v L) :
    (pairs b S).map Prod.fst = List.ofFn b := by
  unfold pairs
  rw [List.map_ofFn]; rfl

theorem pairs_snd {n : Nat} (b : Blocks n) (S : Fin n → OneCipher v L) :
    (pairs b S).map Prod.snd = List.ofFn S := by
  unfold pairs
  rw [List.map_ofFn]; rfl

variable {n : Nat}

/-- What happened, and the cipher keys. -/
abbrev Outcome (v : Ver) (L : Nat) := Run v L HidingCore × EncKeys

/-- The session itself. -/
def real (P : Prims) (iv : Ivs v) (co : Strat v L HidingCore) (s : Side) (k q : Nat) (y : Apart v n L) :
    Outcome v L :=
  (run co y.2.2.1 (fun r m (_ : OneCipher v L) => textOne P iv s r m (y.2.2.1 (y.2.1 (r.tag, m)))) k q
    (pairs y.1 y.2.2.2) [], y.2.1)

/-- The session with the other ciphers in place of the ciphers under the derived keys. -/
def ideal (P : Prims) (iv : Ivs v) (co : Strat v L HidingCore) (s : Side) (k q : Nat)
    (y : Apart v n L) : Outcome v L :=
  (run co y.2.2.1 (textOne P iv s) k q (pairs y.1 y.2.2.2) [], y.2.1)

/-- The cipher keys used. -/
def used (o : Outcome v L) : List (BytesN 32) := o.1.trace.map fun y => o.2 (y.1.tag, y.2)

/-- All cipher keys used are different, and the cipher was not computed for any of them. -/
def Clean (o : Outcome v L) : Prop := (used o).Nodup ∧ ∀ x ∈ o.1.keys, x ∉ used o

/-- Exchange the ciphers under the keys listed with the other ciphers. -/
def exch (E : List (BytesN 32)) (y : Apart v n L) : Apart v n L :=
  (y.1, y.2.1,
    fun x => if h : x ∈ E ∧ E.idxOf x < n then y.2.2.2 ⟨E.idxOf x, h.2⟩ else y.2.2.1 x,
    fun i => if h : i.1 < E.length then y.2.2.1 E[i.1] else y.2.2.2 i)

theorem exch_exch (E : List (BytesN 32)) (hE : E.Nodup) (y : Apart v n L) : exch E (exch E y) = y := by
  obtain ⟨b, e, c, S⟩ := y
  unfold exch
  refine Prod.ext rfl (Prod.ext rfl (Prod.ext ?_ ?_))
  · funext x
    dsimp only
    by_cases h : x ∈ E ∧ E.idxOf x < n
    · rw [dif_pos h, dif_pos (List.idxOf_lt_length_of_mem h.1)]
      rw [List.getElem_idxOf]
    · rw [dif_neg h, dif_neg h]
  · funext i
    dsimp only
    by_cases h : i.1 < E.length
    · rw [dif_pos h]
      have h2 : E.idxOf E[i.1] = i.1 := hE.idxOf_getElem i.1 h
      have h3 : E[i.1] ∈ E ∧ E.idxOf E[i.1] < n := ⟨List.getElem_mem h, lt_of_eq_of_lt h2 i.2⟩
      rw [dif_pos h3]
      congr 1
      exact Fin.ext h2
    · rw [dif_neg h, dif_neg h]

theorem exch_cipher_of_not_mem {E : List (BytesN 32)} {x : BytesN 32} (h : x ∉ E) (y : Apart v n L) :
    (exch E y).2.2.1 x = y.2.2.1 x := dif_neg fun h' => h h'.1

/-- What is at a place of both lists, taken together. -/
theorem mem_zip {α β γ : Type} {a : List α} {S T : Fin n → β} (f : α → γ) {y : α × β × β}
    (h : y ∈ a.zip ((List.ofFn S).zip (List.ofFn T))) :
    ∃ (i : Fin n) (hi : i.1 < (a.map f).length), (a.map f)[i.1] = f y.1 ∧ y.2.1 = S i ∧ y.2.2 = T i ∧
      a[i.1]'(by rwa [List.length_map] at hi) = y.1 := by
  obtain ⟨i, hi, rfl⟩ := List.mem_iff_getElem.1 h
  simp only [List.length_zip, List.length_ofFn] at hi
  rw [Nat.min_self, Nat.lt_min] at hi
  refine ⟨⟨i, hi.2⟩, by rw [List.length_map]; exact hi.1, ?_, ?_, ?_, ?_⟩ <;> simp

theorem real_ideal (iv : Ivs v) (co : Strat v L HidingCore) (s : Side) (k q : Nat) (y : Apart v n L)
    (h : Clean (real P iv co s k q y)) :
    ideal P iv co s k q (exch (used (real P iv co s k q y)) y) = real P iv co s k q y := by
  refine Prod.ext ?_ rfl
  refine run_congr co _ _ _ _ k q _ _ [] (by rw [pairs_fst, pairs_fst]; rfl) ?_ ?_
  · intro x hx
    exact exch_cipher_of_not_mem (h.2 x hx) y
  · intro z hz
    rw [pairs_snd, pairs_snd] at hz
    obtain ⟨i, hi, h1, h2, h3, -⟩ := mem_zip (fun t => y.2.1 (t.1.tag, t.2)) hz
    rw [h3]
    have : (exch (used (real P iv co s k q y)) y).2.2.2 i = y.2.2.1 (y.2.1 (z.1.1.tag, z.1.2)) := by
      rw [← h1]
      exact dif_pos hi
    rw [this]

theorem ideal_real (iv : Ivs v) (co : Strat v L HidingCore) (s : Side) (k q : Nat) (y : Apart v n L)
    (h : Clean (ideal P iv co s k q y)) :
    real P iv co s k q (exch (used (ideal P iv co s k q y)) y) = ideal P iv co s k q y := by
  refine Prod.ext ?_ rfl
  refine run_congr co _ _ _ _ k q _ _ [] (by rw [pairs_fst, pairs_fst]; rfl) ?_ ?_
  · intro x hx
    exact exch_cipher_of_not_mem (h.2 x hx) y
  · intro z hz
    rw [pairs_snd, pairs_snd] at hz
    obtain ⟨i, hi, h1, h2, h3, -⟩ := mem_zip (fun t => y.2.1 (t.1.tag, t.2)) hz
    rw [h2]
    have : (exch (used (ideal P iv co s k q y)) y).2.2.1 (y.2.1 (z.1.1.tag, z.1.2)) = y.2.2.2 i := by
      rw [← h1]
      have e : (used (ideal P iv co s k q y)).idxOf ((used (ideal P iv co s k q y))[i.1]'hi) = i.1 :=
        h.1.idxOf_getElem i.1 hi
      have e' : ∀ j (hj : j < n), j = i.1 → y.2.2.2 ⟨j, hj⟩ = y.2.2.2 i := fun j hj h => by subst h; rfl
      exact (dif_pos ⟨List.getElem_mem hi, lt_of_eq_of_lt e i.2⟩).trans (e' _ _ e)
    show textOne P iv s z.1.1 z.1.2 ((exch (used (ideal P iv co s k q y)) y).2.2.1
      (y.2.1 (z.1.1.tag, z.1.2))) = _
    rw [this]

/-- Mask the other ciphers with what the candidates differ by. -/
def swap (iv : Ivs v) (o : Outcome v L) (y : Apart v n L) : Apart v n L :=
  (y.1, y.2.1, y.2.2.1, fun i => if h : i.1 < o.1.trace.length then
    maskOne (iv (o.1.trace[i.1].1.tag, o.1.trace[i.1].2)) (C82.diff o.1.trace[i.1].1) (y.2.2.2 i)
    else y.2.2.2 i)

theorem swap_swap (iv : Ivs v) (o : Outcome v L) (y : Apart v n L) : swap iv o (swap iv o y) = y := by
  obtain ⟨b, e, c, S⟩ := y
  unfold swap
  refine Prod.ext rfl (Prod.ext rfl (Prod.ext rfl ?_))
  funext i
  dsimp only
  by_cases h : i.1 < o.1.trace.length
  · rw [dif_pos h, dif_pos h, maskOne_maskOne]
  · rw [dif_neg h, dif_neg h]

theorem trace_mem (co : Strat v L R) (c : CipherOf v L) (txt : R → BytesN 32 → W → Bytes)
    (ok : R → Prop) (hco : ∀ seen r, co seen = some (.inl r) → ok r) :
    ∀ (k q : Nat) (l : List (BytesN 32 × W)) (seen : List (Calculated v L)),
      ∀ y ∈ (run co c txt k q l seen).trace, ok y.1 := by
  intro k
  induction k with
  | zero => intro q l seen y hy; cases hy
  | succ k ih =>
    intro q l seen y hy
    unfold run at hy
    cases h : co seen with
    | none => rw [h] at hy; cases hy
    | some d =>
      rw [h] at hy
      cases d with
      | inl r =>
        cases l with
        | nil => cases hy
        | cons z l =>
          rcases List.mem_cons.1 hy with rfl | hy
          · exact hco seen r h
          · exact ih _ _ _ y hy
      | inr x =>
        cases q with
        | zero => cases hy
        | succ q => exact ih _ _ _ y hy

theorem trace_nonces (co : Strat v L R) (c : CipherOf v L) (txt : R → BytesN 32 → W → Bytes) :
    ∀ (k q : Nat) (l : List (BytesN 32 × W)) (seen : List (Calculated v L)),
      List.Sublist ((run co c txt k q l seen).trace.map Prod.snd) (l.map Prod.fst) := by
  intro k
  induction k with
  | zero => intro q l seen; exact List.nil_sublist _
  | succ k ih =>
    intro q l seen
    unfold run
    cases co seen with
    | none => exact List.nil_sublist _
    | some d =>
      cases d with
      | inl r =>
        cases l with
        | nil => exact List.nil_sublist _
        | cons z l => exact (ih _ _ _).cons_cons _
      | inr x =>
        cases q with
        | zero => exact List.nil_sublist _
        | succ q => exact ih _ _ _

theorem keys_length (co : Strat v L R) (c : CipherOf v L) (txt : R → BytesN 32 → W → Bytes) :
    ∀ (k q : Nat) (l : List (BytesN 32 × W)) (seen : List (Calculated v L)),
      (run co c txt k q l seen).keys.length ≤ q := by
  intro k
  induction k with
  | zero => intros; exact Nat.zero_le _
  | succ k ih =>
    intro q l seen
    unfold run
    cases co seen with
    | none => exact Nat.zero_le _
    | some d =>
      cases d with
      | inl r =>
        cases l with
        | nil => exact Nat.zero_le _
        | cons y l => exact ih _ _ _
      | inr x =>
        cases q with
        | zero => exact Nat.zero_le _
        | succ q => exact Nat.succ_le_succ (ih _ _ _)

theorem ideal_swap (iv : Ivs v) (co : Strat v L HidingCore)
    (hco : ∀ seen r, co seen = some (.inl r) → r.Ok L) (s : Side) (k q : Nat) (y : Apart v n L) :
    ideal P iv co (C82.other s) k q (swap iv (ideal P iv co s k q y) y) = ideal P iv co s k q y := by
  refine Prod.ext ?_ rfl
  refine run_congr co _ _ _ _ k q _ _ [] (by rw [pairs_fst, pairs_fst]; rfl) (fun _ _ => rfl) ?_
  intro z hz
  have hok := trace_mem co _ _ _ hco k q _ _ z.1 (List.of_mem_zip hz).1
  rw [pairs_snd, pairs_snd] at hz
  obtain ⟨i, hi, -, h2, h3, h4⟩ := mem_zip (fun _ => ()) hz
  rw [List.length_map] at hi
  have : (swap iv (ideal P iv co s k q y) y).2.2.2 i =
      maskOne (iv (z.1.1.tag, z.1.2)) (C82.diff z.1.1) (y.2.2.2 i) := by
    rw [← h4]
    exact dif_pos hi
  rw [h2, h3, this]
  exact text_mask iv s z.1.1 hok z.1.2 (y.2.2.2 i)

/-- Splitting off the cipher keys. -/
def splitKeys (v : Ver) (n L : Nat) :
    (Blocks n × CipherOf v L × (Fin n → OneCipher v L)) × EncKeys ≃ Apart v n L where
  toFun x := (x.1.1, x.2, x.1.2)
  invFun y := ((y.1, y.2.2), y.2.1)
  left_inv _ := rfl
  right_inv _ := rfl

/-- Random blocks are hardly ever repeated. -/
theorem blocks_repeat (n : Nat) (T : Type) [Fintype T] [DecidableEq T] :
    (C82.count fun b : Fin n → T => ¬ (List.ofFn b).Nodup) * (2 * Fintype.card T) ≤
      n * (n - 1) * Fintype.card (Fin n → T) := by
  have h := count_coll ([] : List T) (List.finRange n) (List.nodup_finRange n)
  rw [List.length_finRange, List.length_nil, Nat.mul_zero, Nat.mul_zero, Nat.add_zero] at h
  refine le_trans (Nat.mul_le_mul_right _ (C83.count_mono ?_)) h
  intro b hb hn
  apply hb
  rw [List.ofFn_eq_map]
  exact hn.1

/-- That the other ciphers do not do is as rare as that cipher keys are repeated or guessed. -/
theorem unclean (P : Prims) (iv : Ivs v) (co : Strat v L HidingCore) (s : Side) (k q : Nat) :
    (C82.count fun y : Apart v n L => ¬ Clean (ideal P iv co s k q y)) * 2 ^ 256 ≤
      (n * (n - 1) + n * q) * Fintype.card (Apart v n L) := by
  have h1 : (C82.count fun y : Apart v n L => ¬ (List.ofFn y.1).Nodup) *
      (2 * Fintype.card (BytesN 32)) ≤ n * (n - 1) * Fintype.card (Apart v n L) := by
    have h := blocks_repeat n (BytesN 32)
    rw [C94.count_fst (β := EncKeys × CipherOf v L × (Fin n → OneCipher v L))
      (fun b : Blocks n => ¬ (List.ofFn b).Nodup), Nat.mul_assoc, show Fintype.card (Apart v n L) = _ from
      Fintype.card_prod (Blocks n) (EncKeys × CipherOf v L × (Fin n → OneCipher v L))]
    refine (Nat.mul_le_mul_left _ h).trans (le_of_eq ?_)
    ring
  have h2 : (C82.count fun y : Apart v n L => (List.ofFn y.1).Nodup ∧
      ¬ Clean (ideal P iv co s k q y)) * (2 * Fintype.card (BytesN 32)) ≤
      (n * (n - 1) + 2 * (n * q)) * Fintype.card (Apart v n L) := by
    rw [← C94.count_equiv (splitKeys v n L), C82.count_prod, Finset.sum_mul,
      ← Fintype.card_congr (splitKeys v n L), Fintype.card_prod]
    have key : ∀ z : Blocks n × CipherOf v L × (Fin n → OneCipher v L),
        (C82.count fun e : EncKeys => (List.ofFn (splitKeys v n L (z, e)).1).Nodup ∧
          ¬ Clean (ideal P iv co s k q (splitKeys v n L (z, e)))) * (2 * Fintype.card (BytesN 32)) ≤
        (n * (n - 1) + 2 * (n * q)) * Fintype.card EncKeys := by
      rintro ⟨b, c, S⟩
      by_cases hb : (List.ofFn b).Nodup
      · generalize ho : run co c (textOne P iv s) k q (pairs b S) [] = o
        have hs := trace_nonces co c (textOne P iv s) k q (pairs b S) []
        have hl := trace_length co c (textOne P iv s) k q (pairs b S) []
        have hq := keys_length co c (textOne P iv s) k q (pairs b S) []
        rw [ho] at hs hl hq
        rw [pairs_fst] at hs
        have hlen : (pairs b S).length = n := List.length_ofFn
        rw [hlen] at hl
        have hx : (o.trace.map fun y => ((y.1.tag, y.2) : EncInput)).Nodup := by
          have h3 := hs.nodup hb
          refine List.Nodup.of_map Prod.snd ?_
          rw [List.map_map]
          exact h3
        have h := count_coll (T := BytesN 32) o.keys _ hx
        rw [List.length_map] at h
        have h4 : (C82.count fun e : EncKeys => (List.ofFn (splitKeys v n L ((b, c, S), e)).1).Nodup ∧
            ¬ Clean (ideal P iv co s k q (splitKeys v n L ((b, c, S), e)))) ≤
            C82.count fun f : EncKeys => ¬ (((o.trace.map fun y => ((y.1.tag, y.2) : EncInput)).map
              f).Nodup ∧ ∀ p ∈ o.trace.map fun y => ((y.1.tag, y.2) : EncInput), f p ∉ o.keys) := by
          refine C83.count_mono fun e he hn => he.2 ?_
          have e1 : ideal P iv co s k q (splitKeys v n L ((b, c, S), e)) = (o, e) := by
            rw [← ho]; rfl
          rw [e1]
          have e2 : used (o, e) = (o.trace.map fun y => ((y.1.tag, y.2) : EncInput)).map e := by
            rw [List.map_map]; rfl
          refine ⟨e2 ▸ hn.1, fun x hx hm => ?_⟩
          rw [e2] at hm
          obtain ⟨p, hp, rfl⟩ := List.mem_map.1 hm
          exact hn.2 p hp hx
        refine (Nat.mul_le_mul_right _ h4).trans (h.trans (Nat.mul_le_mul_right _ ?_))
        exact Nat.add_le_add (Nat.mul_le_mul hl (Nat.sub_le_sub_right hl 1))
          (Nat.mul_le_mul_left 2 (Nat.mul_le_mul hl hq))
      · rw [count_none fun e he => hb he.1, Nat.zero_mul]
        exact Nat.zero_le _
    refine (Finset.sum_le_sum fun z _ => key z).trans (le_of_eq ?_)
    rw [Finset.sum_const, Finset.card_univ, Nat.nsmul_eq_mul]
    ring
  have h3 : (C82.count fun y : Apart v n L => ¬ Clean (ideal P iv co s k q y)) ≤
      (C82.count fun y : Apart v n L => ¬ (List.ofFn y.1).Nodup) +
        C82.count fun y : Apart v n L => (List.ofFn y.1).Nodup ∧ ¬ Clean (ideal P iv co s k q y) := by
    refine (C83.count_mono fun y hy => ?_).trans (C83.count_or _ _)
    by_cases h : (List.ofFn y.1).Nodup
    · exact .inr ⟨h, hy⟩
    · exact .inl h
  have hT : Fintype.card (BytesN 32) = 2 ^ 256 := by rw [C75.card_bytes]; norm_num
  rw [hT] at h1 h2
  generalize (C82.count fun y : Apart v n L => ¬ Clean (ideal P iv co s k q y)) = a at *
  generalize (C82.count fun y : Apart v n L => ¬ (List.ofFn y.1).Nodup) = b at *
  generalize (C82.count fun y : Apart v n L =>
    (List.ofFn y.1).Nodup ∧ ¬ Clean (ideal P iv co s k q y)) = d at *
  generalize 2 ^ 256 = T at *
  generalize Fintype.card (Apart v n L) = N at *
  have h4 := Nat.mul_le_mul_right (2 * T) h3
  have h5 : 2 * (a * T) ≤ 2 * ((n * (n - 1) + n * q) * N) := by
    calc 2 * (a * T) = a * (2 * T) := by ring
      _ ≤ (b + d) * (2 * T) := h4
      _ = b * (2 * T) + d * (2 * T) := by ring
      _ ≤ n * (n - 1) * N + (n * (n - 1) + 2 * (n * q)) * N := Nat.add_le_add h1 h2
      _ = _ := by ring
  omega

/-- Hardly anything is gained from the candidates on one side rather than those on the other. -/
theorem core_side (P : Prims) (iv : Ivs v) (co : Strat v L HidingCore)
    (hco : ∀ seen r, co seen = some (.inl r) → r.Ok L) (s : Side) (k q : Nat)
    (A : List (Calculated v L) → Prop) :
    (C82.count fun y : Apart v n L => A (real P iv co s k q y).1.seen) * 2 ^ 256 ≤
      (C82.count fun y : Apart v n L => A (real P iv co (C82.other s) k q y).1.seen) * 2 ^ 256 +
        (n * (n - 1) + n * q) * Fintype.card (Apart v n L) := by
  have h0 := unclean (n := n) P iv co s k q
  have h1 := count_transfer (fun o => A o.1.seen) Clean
    (real (n := n) P iv co s k q) (ideal P iv co s k q) (fun o => exch (used o))
    (fun o y h => exch_exch _ h.1 y) (fun y h => real_ideal iv co s k q y h)
  have h2 := count_transfer (fun o => A o.1.seen) Clean
    (ideal (n := n) P iv co s k q) (ideal P iv co (C82.other s) k q) (swap iv)
    (fun o y _ => swap_swap iv o y) (fun y _ => ideal_swap iv co hco s k q y)
  have h3 := count_transfer (fun o => A o.1.seen) Clean
    (ideal (n := n) P iv co (C82.other s) k q) (real P iv co (C82.other s) k q) (fun o => exch (used o))
    (fun o y h => exch_exch _ h.1 y) (fun y h => ideal_real iv co (C82.other s) k q y h)
  have h4 := count_transfer (fun _ => True) Clean
    (ideal (n := n) P iv co s k q) (real P iv co s k q) (fun o => exch (used o))
    (fun o y h => exch_exch _ h.1 y) (fun y h => ideal_real iv co s k q y h)
  simp only [and_true] at h4
  have h5 := count_not fun y : Apart v n L => Clean (ideal P iv co s k q y)
  have h6 := count_not fun y : Apart v n L => Clean (real P iv co s k q y)
  have h7 : (C82.count fun y : Apart v n L => A (real P iv co s k q y).1.seen) ≤
      (C82.count fun y : Apart v n L => Clean (real P iv co s k q y) ∧
        A (real P iv co s k q y).1.seen) +
      C82.count fun y : Apart v n L => ¬ Clean (real P iv co s k q y) := by
    refine (C83.count_mono fun y hy => ?_).trans (C83.count_or _ _)
    by_cases h : Clean (real P iv co s k q y)
    · exact .inl ⟨h, hy⟩
    · exact .inr h
  have h8 : (C82.count fun y : Apart v n L => Clean (real P iv co (C82.other s) k q y) ∧
      A (real P iv co (C82.other s) k q y).1.seen) ≤
      C82.count fun y : Apart v n L => A (real P iv co (C82.other s) k q y).1.seen :=
    C83.count_mono fun y hy => hy.2
  have h9 := h7.trans (Nat.add_le_add (h1.trans (h2.trans (h3.trans h8))) (by omega :
    (C82.count fun y : Apart v n L => ¬ Clean (real P iv co s k q y)) ≤
      C82.count fun y : Apart v n L => ¬ Clean (ideal P iv co s k q y)))
  refine (Nat.mul_le_mul_right _ h9).trans ?_
  rw [Nat.add_mul]
  exact Nat.add_le_add_left h0 _

end Pasta.C99
