import Verif.Lemmas.Computing
import Verif.Lemmas.Trees

/-!
# Guessing values of a random function under keys that are not known

A strategy may have a random function evaluated under secret keys, itself evaluate it under keys it
chooses, and guess values under secret keys. Counted are the function and the secret keys.
-/

namespace Pasta

/-- A strategy. `hide` asks for the value under the secret key at `p`, `mac` for one under a key that is
chosen, and `look` guesses one under the secret key at `p`. -/
inductive Tries (Pt κ μ T : Type) where
  | stop
  | hide (p : Pt) (m : μ) (next : T → Tries Pt κ μ T)
  | mac (x : κ × μ) (next : T → Tries Pt κ μ T)
  | look (p : Pt) (m : μ) (g : T) (next : Tries Pt κ μ T)

namespace Tries

variable {Pt AK κ μ T : Type}

/-- What was done. -/
structure Path (Pt κ μ T : Type) where
  hides : List (Pt × μ)
  looks : List (Pt × μ × T)
  macs : List (κ × μ)

/-- At most so many of each kind. -/
def AtMost : Nat → Nat → Nat → Tries Pt κ μ T → Prop
  | _, _, _, .stop => True
  | n, o, q, .hide _ _ next => ∃ n', n = n' + 1 ∧ ∀ w, AtMost n' o q (next w)
  | n, o, q, .mac _ next => ∃ q', q = q' + 1 ∧ ∀ w, AtMost n o q' (next w)
  | n, o, q, .look _ _ _ next => ∃ o', o = o' + 1 ∧ AtMost n o' q next

/-- No message comes up twice under secret keys, and no value is guessed that is known. -/
def Proper : List (μ × T) → Tries Pt κ μ T → Prop
  | _, .stop => True
  | known, .hide _ m next => m ∉ known.map Prod.fst ∧ ∀ w, Proper ((m, w) :: known) (next w)
  | known, .mac _ next => ∀ w, Proper known (next w)
  | known, .look _ m g next => (m, g) ∉ known ∧ Proper known next

/-- What happens when the values under secret keys are these. -/
def real (h : Pt → μ → T) (f : κ × μ → T) : Tries Pt κ μ T → Path Pt κ μ T
  | .stop => ⟨[], [], []⟩
  | .hide p m next =>
    let o := real h f (next (h p m))
    ⟨(p, m) :: o.hides, o.looks, o.macs⟩
  | .mac x next =>
    let o := real h f (next (f x))
    ⟨o.hides, o.looks, x :: o.macs⟩
  | .look p m g next =>
    let o := real h f next
    ⟨o.hides, (p, m, g) :: o.looks, o.macs⟩

/-- What happens when the values under secret keys come from elsewhere. -/
def walk {W : Type} (h : Pt → μ → W → T) (f : κ × μ → T) : Tries Pt κ μ T → List W → Path Pt κ μ T
  | .stop, _ => ⟨[], [], []⟩
  | .hide _ _ _, [] => ⟨[], [], []⟩
  | .hide p m next, w :: ws =>
    let o := walk h f (next (h p m w)) ws
    ⟨(p, m) :: o.hides, o.looks, o.macs⟩
  | .mac x next, ws =>
    let o := walk h f (next (f x)) ws
    ⟨o.hides, o.looks, x :: o.macs⟩
  | .look p m g next, ws =>
    let o := walk h f next ws
    ⟨o.hides, (p, m, g) :: o.looks, o.macs⟩

theorem walk_real {W : Type} (h : Pt → μ → T) (f : κ × μ → T) (t : Tries Pt κ μ T) :
    ∀ (o q : Nat) (ws : List W), t.AtMost ws.length o q → walk (fun p m _ => h p m) f t ws = real h f t := by
  induction t with
  | stop => intro o q ws _; rw [walk, real]
  | hide p m next ih =>
    intro o q ws hm
    obtain ⟨n', e, hm⟩ := hm
    cases ws with
    | nil => cases e
    | cons w ws =>
      rw [List.length_cons, Nat.add_right_cancel_iff] at e
      rw [walk, real, ih _ o q ws (e ▸ hm _)]
  | mac x next ih =>
    intro o q ws hm
    obtain ⟨q', rfl, hm⟩ := hm
    rw [walk, real, ih _ o q' ws (hm _)]
  | look p m g next ih =>
    intro o q ws hm
    obtain ⟨o', rfl, hm⟩ := hm
    rw [walk, real, ih o' q ws hm]

/-- The same happens when the values used are the same. -/
theorem walk_congr {W : Type} (h h' : Pt → μ → W → T) (f f' : κ × μ → T) (t : Tries Pt κ μ T) :
    ∀ ws ws' : List W, ws.length = ws'.length →
      (∀ x ∈ (walk h f t ws).macs, f' x = f x) →
      (∀ y ∈ (walk h f t ws).hides.zip (ws.zip ws'), h' y.1.1 y.1.2 y.2.2 = h y.1.1 y.1.2 y.2.1) →
      walk h' f' t ws' = walk h f t ws := by
  induction t with
  | stop => intro ws ws' _ _ _; rw [walk, walk]
  | hide p m next ih =>
    intro ws ws' hl hf hh
    cases ws with
    | nil =>
      cases ws' with
      | nil => rw [walk, walk]
      | cons w' ws' => cases hl
    | cons w ws =>
      cases ws' with
      | nil => cases hl
      | cons w' ws' =>
        rw [walk] at hf hh
        rw [walk, walk]
        simp only [List.zip_cons_cons] at hh
        have h1 := hh _ List.mem_cons_self
        dsimp only at h1
        rw [h1, ih _ ws ws' (Nat.succ.inj hl) hf fun y hy => hh y (List.mem_cons_of_mem _ hy)]
  | mac x next ih =>
    intro ws ws' hl hf hh
    rw [walk] at hf hh
    rw [walk, walk]
    dsimp only at hf hh
    rw [hf x List.mem_cons_self, ih _ ws ws' hl (fun y hy => hf y (List.mem_cons_of_mem _ hy)) hh]
  | look p m g next ih =>
    intro ws ws' hl hf hh
    rw [walk] at hf hh
    rw [walk, walk, ih ws ws' hl hf hh]

theorem walk_lengths {W : Type} (h : Pt → μ → W → T) (f : κ × μ → T) (t : Tries Pt κ μ T) :
    ∀ (n o q : Nat) (ws : List W), t.AtMost n o q →
      (walk h f t ws).hides.length ≤ n ∧ (walk h f t ws).hides.length ≤ ws.length ∧
      (walk h f t ws).looks.length ≤ o ∧ (walk h f t ws).macs.length ≤ q := by
  induction t with
  | stop => intro n o q ws _; rw [walk]; simp
  | hide p m next ih =>
    intro n o q ws hm
    obtain ⟨n', rfl, hm⟩ := hm
    cases ws with
    | nil => rw [walk]; simp
    | cons w ws =>
      obtain ⟨h1, h2, h3, h4⟩ := ih _ n' o q ws (hm (h p m w))
      rw [walk]
      exact ⟨Nat.succ_le_succ h1, Nat.succ_le_succ h2, h3, h4⟩
  | mac x next ih =>
    intro n o q ws hm
    obtain ⟨q', rfl, hm⟩ := hm
    obtain ⟨h1, h2, h3, h4⟩ := ih _ n o q' ws (hm (f x))
    rw [walk]
    exact ⟨h1, h2, h3, Nat.succ_le_succ h4⟩
  | look p m g next ih =>
    intro n o q ws hm
    obtain ⟨o', rfl, hm⟩ := hm
    obtain ⟨h1, h2, h3, h4⟩ := ih n o' q ws hm
    rw [walk]
    exact ⟨h1, h2, Nat.succ_le_succ h3, h4⟩

theorem walk_fresh {W : Type} (h : Pt → μ → W → T) (f : κ × μ → T) (t : Tries Pt κ μ T) :
    ∀ (known : List (μ × T)) (ws : List W), t.Proper known →
      ((walk h f t ws).hides.map Prod.snd).Nodup ∧
      ∀ m ∈ (walk h f t ws).hides.map Prod.snd, m ∉ known.map Prod.fst := by
  induction t with
  | stop => intro known ws _; rw [walk]; simp
  | hide p m next ih =>
    intro known ws hp
    obtain ⟨h1, h2⟩ := hp
    cases ws with
    | nil => rw [walk]; simp
    | cons w ws =>
      obtain ⟨h3, h4⟩ := ih _ _ ws (h2 (h p m w))
      rw [walk]
      dsimp only
      rw [List.map_cons]
      refine ⟨List.nodup_cons.2 ⟨fun hm => h4 m hm (by simp), h3⟩, fun m' hm' => ?_⟩
      rcases List.mem_cons.1 hm' with rfl | hm'
      · exact h1
      · intro h5
        exact h4 m' hm' (by rw [List.map_cons]; exact List.mem_cons_of_mem _ h5)
  | mac x next ih => intro known ws hp; rw [walk]; exact ih _ known ws (hp _)
  | look p m g next ih => intro known ws hp; rw [walk]; exact ih known ws hp.2

/-! ### The inputs that can come up -/

section
variable [DecidableEq κ] [DecidableEq μ] [DecidableEq T] [Fintype T] [Fintype AK]

/-- All inputs of the function that can come up, whatever the secret keys are; `mk` makes the key from what is drawn. -/
def points (mk : Pt → AK → κ) : Tries Pt κ μ T → Finset (κ × μ)
  | .stop => ∅
  | .hide p m next => (Finset.univ.image fun a => (mk p a, m)) ∪ Finset.univ.biUnion fun w => points mk (next w)
  | .mac x next => insert x (Finset.univ.biUnion fun w => points mk (next w))
  | .look p m _ next => (Finset.univ.image fun a => (mk p a, m)) ∪ points mk next

omit [DecidableEq T] in
theorem walk_points {W : Type} (mk : Pt → AK → κ) (ak : Pt → AK) (h : Pt → μ → W → T) (f : κ × μ → T)
    (t : Tries Pt κ μ T) : ∀ ws : List W, ∀ y ∈ (walk h f t ws).hides, (mk y.1 (ak y.1), y.2) ∈ t.points mk := by
  induction t with
  | stop => intro ws y hy; rw [walk] at hy; cases hy
  | hide p m next ih =>
    intro ws y hy
    cases ws with
    | nil => rw [walk] at hy; cases hy
    | cons w ws =>
      rw [walk] at hy
      rw [points, Finset.mem_union]
      rcases List.mem_cons.1 hy with rfl | hy
      · exact .inl (Finset.mem_image.2 ⟨_, Finset.mem_univ _, rfl⟩)
      · exact .inr (Finset.mem_biUnion.2 ⟨_, Finset.mem_univ _, ih _ ws y hy⟩)
  | mac x next ih =>
    intro ws y hy
    rw [walk] at hy
    exact Finset.mem_insert_of_mem (Finset.mem_biUnion.2 ⟨_, Finset.mem_univ _, ih _ ws y hy⟩)
  | look p m g next ih =>
    intro ws y hy
    rw [walk] at hy
    rw [points, Finset.mem_union]
    exact .inr (ih ws y hy)

/-- The strategy when the secret keys are known. -/
def toGuess (mk : Pt → AK → κ) (ak : Pt → AK) : Tries Pt κ μ T → Guess (κ × μ) T
  | .stop => .stop
  | .hide p m next => .look (mk p (ak p), m) fun w => toGuess mk ak (next w)
  | .mac x next => .look x fun w => toGuess mk ak (next w)
  | .look p m g next => .guess (mk p (ak p), m) g fun _ => toGuess mk ak next

omit [DecidableEq T] in
theorem toGuess_points (mk : Pt → AK → κ) (ak : Pt → AK) (t : Tries Pt κ μ T) :
    (t.toGuess mk ak).points ⊆ t.points mk := by
  induction t with
  | stop => exact Finset.Subset.refl _
  | hide p m next ih =>
    intro x hx
    rw [points, Finset.mem_union]
    rcases Finset.mem_insert.1 hx with rfl | hx
    · exact .inl (Finset.mem_image.2 ⟨_, Finset.mem_univ _, rfl⟩)
    · obtain ⟨w, hw, hx⟩ := Finset.mem_biUnion.1 hx
      exact .inr (Finset.mem_biUnion.2 ⟨w, hw, ih w hx⟩)
  | mac x next ih =>
    intro y hy
    rcases Finset.mem_insert.1 hy with rfl | hy
    · exact Finset.mem_insert_self _ _
    · obtain ⟨w, hw, hx⟩ := Finset.mem_biUnion.1 hy
      exact Finset.mem_insert_of_mem (Finset.mem_biUnion.2 ⟨w, hw, ih w hx⟩)
  | look p m g next ih =>
    intro x hx
    rw [points, Finset.mem_union]
    rcases Finset.mem_insert.1 hx with rfl | hx
    · exact .inl (Finset.mem_image.2 ⟨_, Finset.mem_univ _, rfl⟩)
    · rw [Finset.union_self] at hx
      exact .inr (ih hx)

omit [DecidableEq κ] [DecidableEq μ] [DecidableEq T] [Fintype T] [Fintype AK] in
theorem toGuess_atMost (mk : Pt → AK → κ) (ak : Pt → AK) (t : Tries Pt κ μ T) :
    ∀ n o q, t.AtMost n o q → (t.toGuess mk ak).AtMost o := by
  induction t with
  | stop => intro n o q _; trivial
  | hide p m next ih =>
    intro n o q h
    obtain ⟨n', rfl, h⟩ := h
    exact fun w => ih w n' o q (h w)
  | mac x next ih =>
    intro n o q h
    obtain ⟨q', rfl, h⟩ := h
    exact fun w => ih w n o q' (h w)
  | look p m g next ih =>
    intro n o q h
    obtain ⟨o', rfl, h⟩ := h
    exact ⟨o', rfl, fun _ => ih n o' q h⟩

/-- A guess is right. -/
def Right (mk : Pt → AK → κ) (ak : Pt → AK) (f : κ × μ → T) (t : Tries Pt κ μ T) : Prop :=
  ∃ y ∈ (real (fun p m => f (mk p (ak p), m)) f t).looks, f (mk y.1 (ak y.1), y.2.1) = y.2.2

omit [Fintype T] [Fintype AK] in
/-- Right guesses are guesses of something not asked for, unless a secret key is tried. -/
theorem right_wins (mk : Pt → AK → κ) (ak : Pt → AK) (f : κ × μ → T) (t : Tries Pt κ μ T) :
    ∀ (known : List (μ × T)) (S : Finset (κ × μ)), t.Proper known →
      (∀ x ∈ S, (x.2, f x) ∈ known ∨
        ∀ y ∈ (real (fun p m => f (mk p (ak p), m)) f t).looks, mk y.1 (ak y.1) ≠ x.1) →
      (∀ x ∈ (real (fun p m => f (mk p (ak p), m)) f t).macs,
        ∀ y ∈ (real (fun p m => f (mk p (ak p), m)) f t).looks, mk y.1 (ak y.1) ≠ x.1) →
      t.Right mk ak f → (t.toGuess mk ak).Wins f S := by
  induction t with
  | stop => intro known S _ _ _ ⟨y, hy, _⟩; cases hy
  | hide p m next ih =>
    intro known S hp hS hm hr
    refine ih _ ((m, f (mk p (ak p), m)) :: known) _ (hp.2 _) (fun x hx => ?_) hm hr
    rcases Finset.mem_insert.1 hx with rfl | hx
    · exact .inl List.mem_cons_self
    · exact (hS x hx).imp (List.mem_cons_of_mem _) id
  | mac x next ih =>
    intro known S hp hS hm hr
    refine ih _ known _ (hp _) (fun y hy => ?_) (fun y hy => hm y (List.mem_cons_of_mem _ hy)) hr
    rcases Finset.mem_insert.1 hy with rfl | hy
    · exact .inr (hm _ List.mem_cons_self)
    · exact hS y hy
  | look p m g next ih =>
    intro known S hp hS hm hr
    obtain ⟨y, hy, e⟩ := hr
    by_cases hg : f (mk p (ak p), m) = g
    · refine .inl ⟨fun hx => ?_, hg⟩
      rcases hS _ hx with h | h
      · exact hp.1 (hg ▸ h)
      · exact h (p, m, g) List.mem_cons_self rfl
    · refine .inr (ih known S hp.2 (fun x hx => (hS x hx).imp id fun h y hy => h y (List.mem_cons_of_mem _ hy))
        (fun x hx y hy => hm x hx y (List.mem_cons_of_mem _ hy)) ?_)
      rcases List.mem_cons.1 hy with rfl | hy
      · exact absurd e hg
      · exact ⟨y, hy, e⟩

end

/-! ### Other values instead of those under secret keys -/

section
variable [DecidableEq κ] [DecidableEq μ] [DecidableEq T] [Fintype T] [Fintype AK]
  (X : Finset (κ × μ)) (n : Nat)

/-- The secret keys, the function, and other values. -/
abbrev Space (Pt AK T : Type) (X : Finset (κ × μ)) (n : Nat) := (Pt → AK) × (X → T) × (Fin n → T)

/-- The inputs under secret keys. -/
def used (mk : Pt → AK → κ) (o : Path Pt κ μ T × (Pt → AK)) : List (κ × μ) :=
  o.1.hides.map fun y => (mk y.1 (o.2 y.1), y.2)

/-- All inputs under secret keys are different and counted, and no secret key is tried. -/
def Good (mk : Pt → AK → κ) (o : Path Pt κ μ T × (Pt → AK)) : Prop :=
  (used mk o).Nodup ∧ (∀ x ∈ used mk o, x ∈ X) ∧
    ∀ x ∈ o.1.macs, ∀ p ∈ o.1.hides.map Prod.fst ++ o.1.looks.map Prod.fst, mk p (o.2 p) ≠ x.1

variable {X n}

/-- Exchange values of the function with the other values. -/
def exch (E : List (κ × μ)) (y : Space Pt AK T X n) : Space Pt AK T X n :=
  (y.1, fun x => if h : x.1 ∈ E ∧ E.idxOf x.1 < n then y.2.2 ⟨E.idxOf x.1, h.2⟩ else y.2.1 x,
    fun i => if h : ∃ h : i.1 < E.length, E[i.1] ∈ X then y.2.1 ⟨E[i.1]'h.1, h.2⟩ else y.2.2 i)

omit [DecidableEq T] [Fintype T] [Fintype AK] in
theorem exch_exch (E : List (κ × μ)) (hE : E.Nodup) (y : Space Pt AK T X n) : exch E (exch E y) = y := by
  obtain ⟨ak, g, S⟩ := y
  unfold exch
  refine Prod.ext rfl (Prod.ext ?_ ?_)
  · funext x
    dsimp only
    by_cases h : x.1 ∈ E ∧ E.idxOf x.1 < n
    · have h2 : E[E.idxOf x.1]'(List.idxOf_lt_length_of_mem h.1) = x.1 := List.getElem_idxOf _
      rw [dif_pos h, dif_pos ⟨List.idxOf_lt_length_of_mem h.1, by rw [h2]; exact x.2⟩]
      congr 1
      exact Subtype.ext h2
    · rw [dif_neg h, dif_neg h]
  · funext i
    dsimp only
    by_cases h : ∃ h : i.1 < E.length, E[i.1] ∈ X
    · rw [dif_pos h]
      obtain ⟨h1, h1'⟩ := h
      have h2 : E.idxOf E[i.1] = i.1 := hE.idxOf_getElem i.1 h1
      have h3 : E[i.1] ∈ E ∧ E.idxOf E[i.1] < n := ⟨List.getElem_mem h1, lt_of_eq_of_lt h2 i.2⟩
      rw [dif_pos h3]
      congr 1
      exact Fin.ext h2
    · rw [dif_neg h, dif_neg h]

variable (mk : Pt → AK → κ) (d : κ × μ → T) (t : Tries Pt κ μ T)

/-- With the values under secret keys. -/
def run (y : Space Pt AK T X n) : Path Pt κ μ T × (Pt → AK) :=
  (walk (fun p m _ => Guess.ext d X y.2.1 (mk p (y.1 p), m)) (Guess.ext d X y.2.1) t (List.ofFn y.2.2), y.1)

/-- With the other values. -/
def ideal (y : Space Pt AK T X n) : Path Pt κ μ T × (Pt → AK) :=
  (walk (fun _ _ w => w) (Guess.ext d X y.2.1) t (List.ofFn y.2.2), y.1)

omit [DecidableEq T] [Fintype T] [Fintype AK] in
theorem ideal_run (y : Space Pt AK T X n) (h : Good X mk (ideal d t y)) :
    run mk d t (exch (used mk (ideal d t y)) y) = ideal d t y := by
  refine Prod.ext ?_ rfl
  refine walk_congr _ _ _ _ t _ _ (by rw [List.length_ofFn, List.length_ofFn]) ?_ ?_
  · intro x hx
    unfold Guess.ext
    by_cases hX : x ∈ X
    · rw [dif_pos hX, dif_pos hX]
      refine dif_neg fun hE => ?_
      obtain ⟨z, hz, e⟩ := List.mem_map.1 hE.1
      exact h.2.2 x hx z.1 (List.mem_append_left _ (List.mem_map.2 ⟨z, hz, rfl⟩)) (congrArg Prod.fst e)
    · rw [dif_neg hX, dif_neg hX]
  · intro z hz
    obtain ⟨i, hi, h1, h2, h3, -⟩ := C99.mem_zip (fun w => (mk w.1 (y.1 w.1), w.2)) hz
    rw [h2]
    show Guess.ext d X _ (mk z.1.1 (y.1 z.1.1), z.1.2) = _
    rw [← h1]
    have hi' : i.1 < (used mk (ideal d t y)).length := hi
    have e : (used mk (ideal d t y)).idxOf ((used mk (ideal d t y))[i.1]'hi') = i.1 :=
      h.1.idxOf_getElem i.1 hi'
    have hX : (used mk (ideal d t y))[i.1]'hi' ∈ X := h.2.1 _ (List.getElem_mem hi')
    have e' : ∀ j (hj : j < n), j = i.1 → y.2.2 ⟨j, hj⟩ = y.2.2 i := fun j hj h => by subst h; rfl
    exact (dif_pos hX).trans ((dif_pos ⟨List.getElem_mem hi', lt_of_eq_of_lt e i.2⟩).trans (e' _ _ e))

variable [Fintype Pt] [DecidableEq Pt]

omit [DecidableEq κ] in
/-- One secret key is hardly ever a given one. -/
theorem count_key (C : Nat) (hC : ∀ p k, (C82.count fun a : AK => mk p a = k) * C ≤ Fintype.card AK)
    (p : Pt) (k : κ) :
    (C82.count fun ak : Pt → AK => mk p (ak p) = k) * C ≤ Fintype.card (Pt → AK) := by
  have e := C94.count_equiv (Equiv.funSplitAt p AK).symm fun ak : Pt → AK => mk p (ak p) = k
  have e2 : (C82.count fun x : AK × ({j // j ≠ p} → AK) => mk p ((Equiv.funSplitAt p AK).symm x p) = k) =
      C82.count fun x : AK × ({j // j ≠ p} → AK) => mk p x.1 = k := by
    congr 1
    funext x
    have : (Equiv.funSplitAt p AK).symm x p = x.1 := by simp [Equiv.funSplitAt, Equiv.piSplitAt]
    rw [this]
  rw [← e, e2, C94.count_fst (β := {j // j ≠ p} → AK) fun a : AK => mk p a = k,
    Fintype.card_congr (Equiv.funSplitAt p AK), Fintype.card_prod, Nat.mul_assoc,
    Nat.mul_comm (Fintype.card AK)]
  exact Nat.mul_le_mul_left _ (hC p k)

omit [DecidableEq κ] in
/-- Secret keys are hardly ever among those tried. -/
theorem count_keys (C : Nat) (hC : ∀ p k, (C82.count fun a : AK => mk p a = k) * C ≤ Fintype.card AK)
    (l : List (Pt × κ)) :
    (C82.count fun ak : Pt → AK => ∃ y ∈ l, mk y.1 (ak y.1) = y.2) * C ≤
      l.length * Fintype.card (Pt → AK) := by
  induction l with
  | nil =>
    have : (C82.count fun ak : Pt → AK => ∃ y ∈ ([] : List (Pt × κ)), mk y.1 (ak y.1) = y.2) = 0 :=
      C99.count_none fun f ⟨g, hg, _⟩ => (nomatch hg)
    rw [this, Nat.zero_mul]
    exact Nat.zero_le _
  | cons y l ih =>
    have h3 : (C82.count fun ak : Pt → AK => ∃ z ∈ y :: l, mk z.1 (ak z.1) = z.2) ≤
        (C82.count fun ak : Pt → AK => mk y.1 (ak y.1) = y.2) +
          C82.count fun ak : Pt → AK => ∃ z ∈ l, mk z.1 (ak z.1) = z.2 := by
      refine (C83.count_mono fun f hf => ?_).trans (C83.count_or _ _)
      obtain ⟨z, hz, e⟩ := hf
      rcases List.mem_cons.1 hz with rfl | hz
      · exact .inl e
      · exact .inr ⟨z, hz, e⟩
    have h2 := count_key mk C hC y.1 y.2
    have h4 := Nat.mul_le_mul_right C h3
    rw [Nat.add_mul] at h4
    rw [List.length_cons, Nat.succ_mul]
    omega

omit [DecidableEq T] in
/-- With the other values something goes wrong only if a secret key is tried. -/
theorem not_good (C : Nat) (hC : ∀ p k, (C82.count fun a : AK => mk p a = k) * C ≤ Fintype.card AK)
    (o q : Nat) (hm : t.AtMost n o q) (hp : t.Proper []) (hX : t.points mk ⊆ X) :
    (C82.count fun y : Space Pt AK T X n => ¬ Good X mk (ideal d t y)) * C ≤
      (n + o) * q * Fintype.card (Space Pt AK T X n) := by
  rw [C82.count_prod', Finset.sum_mul, Fintype.card_prod]
  have key : ∀ z : (X → T) × (Fin n → T),
      (C82.count fun ak : Pt → AK => ¬ Good X mk (ideal d t (ak, z))) * C ≤
        (n + o) * q * Fintype.card (Pt → AK) := by
    rintro ⟨g, S⟩
    generalize hr : walk (fun _ _ w => w) (Guess.ext d X g) t (List.ofFn S) = r
    have e : ∀ ak : Pt → AK, ideal d t (ak, g, S) = (r, ak) := fun ak => by rw [← hr]; rfl
    obtain ⟨l1, -, l3, l4⟩ := walk_lengths (fun _ _ w => w) (Guess.ext d X g) t n o q (List.ofFn S) hm
    obtain ⟨f1, -⟩ := walk_fresh (fun _ _ w => w) (Guess.ext d X g) t [] (List.ofFn S) hp
    have hpt := fun ak => walk_points mk ak (fun _ _ w => w) (Guess.ext d X g) t (List.ofFn S)
    rw [hr] at l1 l3 l4 f1
    simp only [hr] at hpt
    have h := count_keys mk C hC
      ((r.hides.map Prod.fst ++ r.looks.map Prod.fst) ×ˢ (r.macs.map Prod.fst))
    refine le_trans (Nat.mul_le_mul_right _ (C83.count_mono fun ak hak => ?_)) (h.trans ?_)
    · by_contra hn
      apply hak
      rw [e]
      refine ⟨List.Nodup.of_map Prod.snd ?_, fun x hx => ?_, fun x hx p hp' he => ?_⟩
      · unfold used
        rw [List.map_map]
        exact f1
      · obtain ⟨y, hy, rfl⟩ := List.mem_map.1 hx
        exact hX (hpt ak y hy)
      · exact hn ⟨(p, x.1), List.mem_product.2 ⟨hp', List.mem_map.2 ⟨x, hx, rfl⟩⟩, he⟩
    · rw [List.length_product, List.length_append, List.length_map, List.length_map, List.length_map]
      exact Nat.mul_le_mul_right _ (Nat.mul_le_mul (Nat.add_le_add l1 l3) l4)
  refine (Finset.sum_le_sum fun z _ => key z).trans (le_of_eq ?_)
  rw [Finset.sum_const, Finset.card_univ, Nat.nsmul_eq_mul]
  ring

/-- Guesses are hardly ever right. -/
theorem right_rare [Nonempty T] (C : Nat) (hC : ∀ p k, (C82.count fun a : AK => mk p a = k) * C ≤ Fintype.card AK)
    (o q : Nat) (hm : t.AtMost n o q) (hp : t.Proper []) (hX : t.points mk ⊆ X) :
    (C82.count fun y : (Pt → AK) × (X → T) => t.Right mk y.1 (Guess.ext d X y.2)) *
        (C * Fintype.card T) ≤
      (o * C + (n + o) * q * Fintype.card T) * Fintype.card ((Pt → AK) × (X → T)) := by
  classical
  have h1 := not_good (X := X) (n := n) mk d t C hC o q hm hp hX
  have h4 := C99.count_transfer (fun _ => True) (Good X mk) (ideal (X := X) (n := n) (AK := AK) d t)
    (run mk d t) (fun o => exch (used mk o)) (fun o y h => exch_exch _ h.1 y)
    (fun y h => ideal_run mk d t y h)
  simp only [and_true] at h4
  have h5 := C99.count_not fun y : Space Pt AK T X n => Good X mk (ideal d t y)
  have h6 := C99.count_not fun y : Space Pt AK T X n => Good X mk (run mk d t y)
  have h7 : (C82.count fun y : Space Pt AK T X n => ¬ Good X mk (run mk d t y)) * C ≤
      (n + o) * q * Fintype.card (Space Pt AK T X n) :=
    (Nat.mul_le_mul_right _ (by omega)).trans h1
  have hr : ∀ y : Space Pt AK T X n, run mk d t y = (real (fun p m =>
      Guess.ext d X y.2.1 (mk p (y.1 p), m)) (Guess.ext d X y.2.1) t, y.1) := fun y =>
    Prod.ext (walk_real _ _ t o q (List.ofFn y.2.2) (by rw [List.length_ofFn]; exact hm)) rfl
  have h8 : (C82.count fun y : (Pt → AK) × (X → T) =>
      (t.toGuess mk y.1).Wins (Guess.ext d X y.2) ∅) * Fintype.card T ≤
      o * Fintype.card ((Pt → AK) × (X → T)) := by
    rw [C82.count_prod, Finset.sum_mul, Fintype.card_prod]
    refine (Finset.sum_le_sum fun ak _ => ?_).trans (b := ∑ _ak : Pt → AK, o * Fintype.card (X → T)) ?_
    · have h := Guess.card_wins_all d X (t.toGuess mk ak) o (toGuess_atMost mk ak t n o q hm)
        ((toGuess_points mk ak t).trans hX)
      rw [C82.count_eq] at h
      exact h
    · rw [Finset.sum_const, Finset.card_univ, Nat.nsmul_eq_mul]
      exact le_of_eq (by ring)
  let assoc : ((Pt → AK) × (X → T)) × (Fin n → T) ≃ Space Pt AK T X n := Equiv.prodAssoc _ _ _
  have hS : ∀ A : (Pt → AK) × (X → T) → Prop, (C82.count fun y : Space Pt AK T X n => A (y.1, y.2.1)) =
      Fintype.card (Fin n → T) * C82.count A := by
    intro A
    rw [← C94.count_equiv assoc]
    exact C94.count_fst A
  have hN : Fintype.card (Space Pt AK T X n) =
      Fintype.card (Fin n → T) * Fintype.card ((Pt → AK) × (X → T)) := by
    rw [← Fintype.card_congr assoc, Fintype.card_prod, Nat.mul_comm]
  have h9 : (C82.count fun y : (Pt → AK) × (X → T) => t.Right mk y.1 (Guess.ext d X y.2)) ≤
      (C82.count fun y : (Pt → AK) × (X → T) => ¬ Good X mk (real (fun p m =>
        Guess.ext d X y.2 (mk p (y.1 p), m)) (Guess.ext d X y.2) t, y.1)) +
      C82.count fun y : (Pt → AK) × (X → T) => (t.toGuess mk y.1).Wins (Guess.ext d X y.2) ∅ := by
    refine (C83.count_mono fun y hy => ?_).trans (C83.count_or _ _)
    by_cases hg : Good X mk (real (fun p m => Guess.ext d X y.2 (mk p (y.1 p), m)) (Guess.ext d X y.2) t, y.1)
    · refine .inr (right_wins mk y.1 _ t [] ∅ hp (fun x hx => absurd hx (Finset.notMem_empty x)) ?_ hy)
      intro x hx z hz
      exact hg.2.2 x hx z.1 (List.mem_append_right _ (List.mem_map.2 ⟨z, hz, rfl⟩))
    · exact .inl hg
  have h10 : (C82.count fun y : (Pt → AK) × (X → T) => ¬ Good X mk (real (fun p m =>
      Guess.ext d X y.2 (mk p (y.1 p), m)) (Guess.ext d X y.2) t, y.1)) * C ≤
      (n + o) * q * Fintype.card ((Pt → AK) × (X → T)) := by
    have e := hS fun y => ¬ Good X mk (real (fun p m =>
      Guess.ext d X y.2 (mk p (y.1 p), m)) (Guess.ext d X y.2) t, y.1)
    simp only [hr] at h7
    rw [e, hN] at h7
    have hpos : 0 < Fintype.card (Fin n → T) := Fintype.card_pos_iff.2 ⟨fun _ => Classical.arbitrary T⟩
    refine Nat.le_of_mul_le_mul_left (le_trans (le_of_eq ?_) (h7.trans (le_of_eq ?_))) hpos <;> ring
  have h11 := Nat.mul_le_mul_right (C * Fintype.card T) h9
  refine h11.trans ?_
  have h12 := Nat.mul_le_mul_right (Fintype.card T) h10
  have h13 := Nat.mul_le_mul_right C h8
  refine le_trans (le_of_eq ?_) ((Nat.add_le_add h12 h13).trans (le_of_eq ?_)) <;> ring

end

end Tries
end Pasta
