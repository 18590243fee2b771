import Verif.Model.Local
import Verif.Lemmas.Base64

/-! # Lemmas about the basic operations -/

namespace Pasta

namespace Res

theorem bind_eq_ok {α β : Type} {x : Res α} {f : α → Res β} {b : β} :
    (x >>= f) = .ok b ↔ ∃ a, x = .ok a ∧ f a = .ok b := by
  cases x <;> simp

theorem bind_eq_err {α β : Type} {x : Res α} {f : α → Res β} {e : PasetoError} :
    (x >>= f) = .err e ↔ x = .err e ∨ ∃ a, x = .ok a ∧ f a = .err e := by
  cases x <;> simp

theorem bind_eq_panic {α β : Type} {x : Res α} {f : α → Res β} :
    (x >>= f) = .panic ↔ x = .panic ∨ ∃ a, x = .ok a ∧ f a = .panic := by
  cases x <;> simp

theorem okOr_eq_ok {α : Type} {e : PasetoError} {o : Option α} {a : α} :
    okOr e o = .ok a ↔ o = some a := by
  cases o <;> simp

theorem okOr_eq_err {α : Type} {e e' : PasetoError} {o : Option α} :
    okOr e o = .err e' ↔ o = none ∧ e = e' := by
  cases o <;> simp

theorem okOr_ne_panic {α : Type} {e : PasetoError} {o : Option α} : okOr e o ≠ .panic := by
  cases o <;> simp

theorem unwrap_eq_ok {α : Type} {o : Option α} {a : α} : unwrap o = .ok a ↔ o = some a := by
  cases o <;> simp

theorem unwrap_eq_panic {α : Type} {o : Option α} : unwrap o = .panic ↔ o = none := by
  cases o <;> simp

theorem unwrap_ne_err {α : Type} {o : Option α} {e : PasetoError} : unwrap o ≠ .err e := by
  cases o <;> simp

theorem ofExcept_eq_ok {α : Type} {o : Except String α} {a : α} :
    ofExcept o = .ok a ↔ o = .ok a := by
  cases o <;> simp

theorem ofExcept_eq_err {α : Type} {o : Except String α} {e : PasetoError} :
    ofExcept o = .err e ↔ ∃ m, o = .error m ∧ e = .payloadError m := by
  cases o <;> simp [eq_comm]

theorem ofExcept_ne_panic {α : Type} {o : Except String α} : ofExcept o ≠ .panic := by
  cases o <;> simp

theorem bind_assoc' {α β γ : Type} (x : Res α) (f : α → Res β) (g : β → Res γ) :
    ((x >>= f) >>= g) = x >>= fun a => f a >>= g := by
  cases x <;> rfl

end Res

/-! ### Strings -/

@[simp] theorem stripPrefix_append (p s : Bytes) : stripPrefix p (p ++ s) = some s := by
  induction p with
  | nil => simp [stripPrefix]
  | cons x xs ih => simp [stripPrefix, ih]

theorem stripPrefix_eq_some {p s r : Bytes} : stripPrefix p s = some r ↔ s = p ++ r := by
  constructor
  · intro h
    fun_induction stripPrefix p s with
    | case1 => simp_all
    | case2 => simp at h
    | case3 => simp_all
    | case4 => simp at h
  · rintro rfl; simp

theorem stripPrefix_eq_none {p s : Bytes} : stripPrefix p s = none ↔ ∀ r, s ≠ p ++ r := by
  constructor
  · rintro h r rfl; simp at h
  · intro h
    cases hs : stripPrefix p s with
    | none => rfl
    | some r => exact absurd (stripPrefix_eq_some.1 hs) (h r)

theorem splitOnce_eq_none {c : UInt8} {s : Bytes} : splitOnce c s = none ↔ c ∉ s := by
  fun_induction splitOnce c s with
  | case1 => simp
  | case2 => simp
  | case3 x xs hx a b hs ih => simp_all
  | case4 x xs hx hs ih => simp_all [Ne.symm hx, eq_comm]

theorem splitOnce_eq_some {c : UInt8} {s a b : Bytes} :
    splitOnce c s = some (a, b) ↔ s = a ++ c :: b ∧ c ∉ a := by
  fun_induction splitOnce c s generalizing a b with
  | case1 => simp
  | case2 xs =>
    simp only [Option.some.injEq, Prod.mk.injEq]
    constructor
    · rintro ⟨rfl, rfl⟩; simp
    · rintro ⟨h1, h2⟩
      rcases a with _ | ⟨y, ys⟩
      · simp_all
      · simp_all
  | case3 x xs hx a' b' hs ih =>
    simp only [Option.some.injEq, Prod.mk.injEq]
    have hs' := (ih (a := a') (b := b')).1 hs
    constructor
    · rintro ⟨rfl, rfl⟩
      refine ⟨by simp [hs'.1], ?_⟩
      simp [hs'.2, Ne.symm hx]
    · rintro ⟨h1, h2⟩
      rcases a with _ | ⟨y, ys⟩
      · simp at h1; exact absurd h1.1 hx
      · simp only [List.cons_append, List.cons.injEq] at h1
        have := (ih (a := ys) (b := b)).2 ⟨h1.2, fun hm => h2 (List.mem_cons_of_mem _ hm)⟩
        rw [hs] at this
        simp at this
        simp [h1.1, this]
  | case4 x xs hx hs ih =>
    simp only [false_iff, reduceCtorEq]
    rintro ⟨h1, h2⟩
    rcases a with _ | ⟨y, ys⟩
    · simp at h1; exact hx h1.1
    · simp only [List.cons_append, List.cons.injEq] at h1
      exact splitOnce_eq_none.1 hs (by simp [h1.2])

/-! ### Tag comparison -/

theorem u8CtEq_zero : ∀ x : UInt8, ((x ||| (0 - x)) >>> 7) ^^^ 1 = if x = 0 then 1 else 0 := by
  apply B64.forall_uint8; decide +kernel

theorem u8CtEq_eq (a b : UInt8) : u8CtEq a b = if a = b then 1 else 0 := by
  unfold u8CtEq
  rw [u8CtEq_zero]
  simp only [UInt8.xor_eq_zero_iff]

theorem ctEq_foldl (l : List (UInt8 × UInt8)) (x : UInt8) (hx : x = 0 ∨ x = 1) :
    l.foldl (fun x p => x &&& u8CtEq p.1 p.2) x =
      if x = 1 ∧ ∀ p ∈ l, p.1 = p.2 then 1 else 0 := by
  induction l generalizing x with
  | nil => rcases hx with rfl | rfl <;> simp
  | cons p l ih =>
    obtain ⟨a, b⟩ := p
    rw [List.foldl_cons, u8CtEq_eq, ih]
    · simp only [List.forall_mem_cons]
      by_cases h : a = b
      · rw [if_pos h]
        rcases hx with rfl | rfl
        · simp
        · rw [show (1 &&& 1 : UInt8) = 1 from rfl]; simp only [h, true_and]
      · rw [if_neg h, UInt8.and_zero]; simp [h]
    · by_cases h : a = b
      · rw [if_pos h]
        rcases hx with rfl | rfl
        · simp
        · right; rfl
      · rw [if_neg h, UInt8.and_zero]; simp

theorem zip_all_eq : ∀ {a b : Bytes}, a.length = b.length →
    ((∀ p ∈ a.zip b, p.1 = p.2) ↔ a = b)
  | [], [], _ => by simp
  | [], _ :: _, h => by simp at h
  | _ :: _, [], h => by simp at h
  | x :: xs, y :: ys, h => by
    have := zip_all_eq (a := xs) (b := ys) (by simpa using h)
    simp only [List.zip_cons_cons, List.forall_mem_cons, this, List.cons.injEq]

theorem ctEq_eq (a b : Bytes) : ctEq a b = if a = b then 1 else 0 := by
  unfold ctEq
  split
  · rename_i h
    rw [if_neg]; rintro rfl; exact h rfl
  · rename_i h
    rw [ctEq_foldl _ _ (.inr rfl)]
    simp only [true_and, zip_all_eq (show a.length = b.length by omega)]

theorem ctNe_eq_false {a b : Bytes} : ctNe a b = false ↔ a = b := by
  unfold ctNe
  rw [ctEq_eq]
  by_cases h : a = b <;> simp [h]

theorem ctNe_eq_true {a b : Bytes} : ctNe a b = true ↔ a ≠ b := by
  rw [← Bool.not_eq_false, ne_eq, ctNe_eq_false]

@[simp] theorem ctNe_self (a : Bytes) : ctNe a a = false := ctNe_eq_false.2 rfl

/-! ### RNG -/

theorem fillBytes_eq_ok {n : Nat} {rng rng' : Rng} {b : BytesN n} :
    fillBytes n rng = .ok (b, rng') ↔ rng = b.1 ++ rng' := by
  unfold fillBytes
  constructor
  · intro h
    split at h
    · simp only [Res.ok.injEq, Prod.mk.injEq] at h
      obtain ⟨rfl, rfl⟩ := h
      simp
    · simp at h
  · rintro rfl
    have hb := b.2
    rw [dif_pos (by simp; omega)]
    congr 2
    · apply Subtype.ext
      simp [← hb]
    · simp [← hb]

theorem fillBytes_eq_panic {n : Nat} {rng : Rng} :
    fillBytes n rng = .panic ↔ rng.length < n := by
  unfold fillBytes; split <;> simp <;> omega

theorem fillBytes_ne_err {n : Nat} {rng : Rng} {e : PasetoError} : fillBytes n rng ≠ .err e := by
  unfold fillBytes; split <;> simp

/-! ### Arrays -/

@[simp] theorem BytesN.split_append {m n k : Nat} (h : k = m + n) (a : BytesN m) (b : BytesN n) :
    BytesN.split m n h (BytesN.append k h a b) = (a, b) := by
  obtain ⟨a, ha⟩ := a
  obtain ⟨b, hb⟩ := b
  subst ha
  simp [BytesN.split, BytesN.append]

@[simp] theorem BytesN.append_split {m n k : Nat} (h : k = m + n) (b : BytesN k) :
    BytesN.append k h (BytesN.split m n h b).1 (BytesN.split m n h b).2 = b := by
  apply Subtype.ext
  simp [BytesN.split, BytesN.append]

theorem BytesN.append_inj {m n k : Nat} {h : k = m + n} {a a' : BytesN m} {b b' : BytesN n}
    (e : BytesN.append k h a b = BytesN.append k h a' b') : a = a' ∧ b = b' := by
  have := congrArg (BytesN.split m n h) e
  simpa using this

@[simp] theorem BytesN.append_val {m n k : Nat} {h : k = m + n} {a : BytesN m} {b : BytesN n} :
    (BytesN.append k h a b).1 = a.1 ++ b.1 := rfl

@[simp] theorem BytesN.split_fst_val {m n k : Nat} {h : k = m + n} {a : BytesN k} :
    (BytesN.split m n h a).1.1 = a.1.take m := rfl

@[simp] theorem BytesN.split_snd_val {m n k : Nat} {h : k = m + n} {a : BytesN k} :
    (BytesN.split m n h a).2.1 = a.1.drop m := rfl

theorem BytesN.ofBytes?_eq_some {n : Nat} {b : Bytes} {x : BytesN n} :
    BytesN.ofBytes? n b = some x ↔ b = x.1 := by
  unfold BytesN.ofBytes?
  constructor
  · intro h
    split at h
    · simp at h; rw [← h]
    · simp at h
  · rintro rfl
    simp [x.2]

theorem BytesN.ofBytes?_eq_none {n : Nat} {b : Bytes} :
    BytesN.ofBytes? n b = none ↔ b.length ≠ n := by
  unfold BytesN.ofBytes?
  split <;> simp_all

/-! ### Key streams -/

@[simp] theorem applyKeystream_twice (ks : Nat → UInt8) (m : Bytes) :
    applyKeystream ks (applyKeystream ks m) = m := by
  unfold applyKeystream
  apply List.ext_getElem
  · simp
  · intro i h1 h2
    simp [UInt8.xor_assoc]

theorem applyKeystream_inj {ks : Nat → UInt8} {a b : Bytes}
    (h : applyKeystream ks a = applyKeystream ks b) : a = b := by
  have := congrArg (applyKeystream ks) h
  simpa using this

@[simp] theorem applyKeystreamN_twice {n : Nat} (ks : Nat → UInt8) (m : BytesN n) :
    applyKeystreamN ks (applyKeystreamN ks m) = m := by
  apply Subtype.ext; simp [applyKeystreamN]

@[simp] theorem applyKeystreamN_val {n : Nat} (ks : Nat → UInt8) (m : BytesN n) :
    (applyKeystreamN ks m).1 = applyKeystream ks m.1 := rfl

/-! ### Integers -/

theorem leBytes_length (k n : Nat) : (leBytes k n).length = k := Prims.leBytes_length k n

theorem leNat_leBytes (k n : Nat) : leNat (leBytes k n) = n % 256 ^ k := by
  induction k generalizing n with
  | zero => simp [leBytes, leNat, Nat.mod_one]
  | succ k ih =>
    simp only [leBytes, leNat, ih]
    rw [Nat.pow_succ, Nat.mul_comm (256 ^ k) 256, Nat.mod_mul]
    simp [UInt8.toNat_ofNat']

theorem leBytes_leNat (b : Bytes) : leBytes b.length (leNat b) = b := by
  induction b with
  | nil => rfl
  | cons x xs ih =>
    have hx := x.toNat_lt
    simp only [List.length_cons, leBytes, leNat]
    rw [show (x.toNat + 256 * leNat xs) / 256 = leNat xs by omega, ih,
      show (x.toNat + 256 * leNat xs) % 256 = x.toNat by omega]
    simp

theorem leNat_lt (b : Bytes) : leNat b < 256 ^ b.length := by
  induction b with
  | nil => simp [leNat]
  | cons x xs ih =>
    have hx := x.toNat_lt
    simp only [leNat, List.length_cons, Nat.pow_succ]
    omega

theorem leBytes_inj {k a b : Nat} (ha : a < 256 ^ k) (hb : b < 256 ^ k)
    (h : leBytes k a = leBytes k b) : a = b := by
  have := congrArg leNat h
  rwa [leNat_leBytes, leNat_leBytes, Nat.mod_eq_of_lt ha, Nat.mod_eq_of_lt hb] at this

theorem beNat_beBytes (k n : Nat) : beNat (beBytes k n) = n % 256 ^ k := by
  simp [beNat, beBytes, leNat_leBytes]

theorem beBytes_beNat (b : Bytes) : beBytes b.length (beNat b) = b := by
  have := leBytes_leNat b.reverse
  simp only [List.length_reverse] at this
  simp [beBytes, beNat, this]

theorem beNat_lt (b : Bytes) : beNat b < 256 ^ b.length := by
  have := leNat_lt b.reverse
  simpa [beNat] using this

theorem beBytes_inj {k a b : Nat} (ha : a < 256 ^ k) (hb : b < 256 ^ k)
    (h : beBytes k a = beBytes k b) : a = b := by
  have := congrArg beNat h
  rwa [beNat_beBytes, beNat_beBytes, Nat.mod_eq_of_lt ha, Nat.mod_eq_of_lt hb] at this

end Pasta
