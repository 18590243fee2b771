import Verif.Real.Prims

/-! # AES-256 under a fixed key is injective on blocks -/

namespace Pasta.Real.Aes

theorem xor_left_cancel' (a b : UInt8) : a ^^^ (a ^^^ b) = b := by
  rw [← UInt8.xor_assoc, UInt8.xor_self, UInt8.zero_xor]

theorem xor_left_comm' (a b c : UInt8) : a ^^^ (b ^^^ c) = b ^^^ (a ^^^ c) := by
  rw [← UInt8.xor_assoc, UInt8.xor_comm a b, UInt8.xor_assoc]

theorem forall_u8 {p : UInt8 → Prop} (h : ∀ n, n < 256 → p (UInt8.ofNat n)) (x : UInt8) : p x := by
  have := h x.toNat x.toNat_lt
  rwa [UInt8.ofNat_toNat] at this

/-- The inverse of the S-box, by search -/
def inv (y : Nat) : Nat := (sboxTable.toList.map UInt8.toNat).idxOf y

theorem sbox_inv : ∀ n, n < 256 → inv (sbox (UInt8.ofNat n)).toNat = n := by decide +kernel

theorem sbox_injective {x y : UInt8} (h : sbox x = sbox y) : x = y := by
  have hx := sbox_inv x.toNat x.toNat_lt
  have hy := sbox_inv y.toNat y.toNat_lt
  rw [UInt8.ofNat_toNat] at hx hy
  rw [h, hy] at hx
  exact (UInt8.toNat_inj.1 hx).symm

theorem top_bit (x : UInt8) : x &&& 0x80 = 0 ∨ x &&& 0x80 = 0x80 := by
  revert x
  exact forall_u8 (by decide +kernel)

theorem xor_and (x y z : UInt8) : (x ^^^ y) &&& z = (x &&& z) ^^^ (y &&& z) := by
  apply UInt8.eq_of_toBitVec_eq
  rw [UInt8.toBitVec_and, UInt8.toBitVec_xor, UInt8.toBitVec_xor, UInt8.toBitVec_and,
    UInt8.toBitVec_and]
  ext i hi
  simp [Bool.and_xor_distrib_right]

theorem xtime_xor (x y : UInt8) : xtime (x ^^^ y) = xtime x ^^^ xtime y := by
  unfold xtime
  rw [UInt8.shiftLeft_xor, xor_and]
  generalize x <<< 1 = a
  generalize y <<< 1 = b
  rcases top_bit x with hx | hx <;> rcases top_bit y with hy | hy <;> rw [hx, hy] <;>
    simp [UInt8.xor_assoc, xor_left_comm', UInt8.xor_comm]

/-- The inverse of a column mix, for the first byte -/
def unmix (a b c d : UInt8) : UInt8 :=
  (xtime (xtime (xtime a)) ^^^ xtime (xtime a) ^^^ xtime a) ^^^
  (xtime (xtime (xtime b)) ^^^ xtime b ^^^ b) ^^^
  (xtime (xtime (xtime c)) ^^^ xtime (xtime c) ^^^ c) ^^^
  (xtime (xtime (xtime d)) ^^^ d)

/-- One byte of a mixed column -/
def mix (a b c d : UInt8) : UInt8 := xtime a ^^^ (xtime b ^^^ b) ^^^ c ^^^ d

theorem unmix_mix (a b c d : UInt8) :
    unmix (mix a b c d) (mix b c d a) (mix c d a b) (mix d a b c) = a := by
  simp only [unmix, mix, xtime_xor, UInt8.xor_assoc]
  generalize xtime (xtime (xtime (xtime a))) = a4
  generalize xtime (xtime (xtime a)) = a3
  generalize xtime (xtime a) = a2
  generalize xtime a = a1
  generalize xtime (xtime (xtime (xtime b))) = b4
  generalize xtime (xtime (xtime b)) = b3
  generalize xtime (xtime b) = b2
  generalize xtime b = b1
  generalize xtime (xtime (xtime (xtime c))) = c4
  generalize xtime (xtime (xtime c)) = c3
  generalize xtime (xtime c) = c2
  generalize xtime c = c1
  generalize xtime (xtime (xtime (xtime d))) = d4
  generalize xtime (xtime (xtime d)) = d3
  generalize xtime (xtime d) = d2
  generalize xtime d = d1
  simp only [xor_left_comm', UInt8.xor_comm, xor_left_cancel', UInt8.xor_self,
    UInt8.xor_zero]

theorem shift_surj : ∀ j, j < 16 → ∃ i, i < 16 ∧ 4 * ((i / 4 + i % 4) % 4) + i % 4 = j := by decide

theorem shift_lt (i : Nat) : 4 * ((i / 4 + i % 4) % 4) + i % 4 < 16 := by omega

def Inj (f : Array UInt8 → Array UInt8) : Prop :=
  (∀ s, (f s).size = s.size) ∧ ∀ s t, s.size = 16 → t.size = 16 → f s = f t → s = t

theorem Inj.comp {f g : Array UInt8 → Array UInt8} (hf : Inj f) (hg : Inj g) :
    Inj fun s => f (g s) :=
  ⟨fun s => (hf.1 _).trans (hg.1 s), fun s t hs ht h =>
    hg.2 s t hs ht (hf.2 _ _ ((hg.1 s).trans hs) ((hg.1 t).trans ht) h)⟩

theorem inj_add (w : Array (Array UInt8)) (r : Nat) : Inj (addRoundKey w r) := by
  refine ⟨fun s => by simp [addRoundKey], fun s t hs ht h => ?_⟩
  refine Array.ext (hs.trans ht.symm) fun i hi hj => ?_
  have := congrArg (fun a => a[i]?) h
  simp only [addRoundKey, Array.getElem?_mapIdx, Array.getElem?_eq_getElem hi,
    Array.getElem?_eq_getElem hj, Option.map_some, Option.some.injEq] at this
  exact UInt8.xor_left_inj _ |>.1 this

theorem inj_sub : Inj (fun s => s.map sbox) := by
  refine ⟨fun s => by simp, fun s t hs ht h => ?_⟩
  refine Array.ext (hs.trans ht.symm) fun i hi hj => ?_
  have := congrArg (fun a => a[i]?) h
  simp only [Array.getElem?_map, Array.getElem?_eq_getElem hi,
    Array.getElem?_eq_getElem hj, Option.map_some, Option.some.injEq] at this
  exact sbox_injective this

theorem inj_shift : Inj shiftRows := by
  refine ⟨fun s => by simp [shiftRows], fun s t hs ht h => ?_⟩
  refine Array.ext (hs.trans ht.symm) fun j hj hj' => ?_
  obtain ⟨i, hi, hij⟩ := shift_surj j (by omega)
  have := congrArg (fun a => a[i]?) h
  simp only [shiftRows, Array.getElem?_mapIdx, hij, Array.getElem?_eq_getElem (hs ▸ hi : i < s.size),
    Array.getElem?_eq_getElem (ht ▸ hi : i < t.size), Option.map_some, Option.some.injEq,
    getElem!_pos s j hj, getElem!_pos t j hj'] at this
  exact this

theorem mixColumns_get (s : Array UInt8) (hs : s.size = 16) (c r : Nat) (hc : c < 4) (hr : r < 4) :
    (mixColumns s)[4 * c + r]? = some (mix s[4 * c + r]! s[4 * c + (r + 1) % 4]!
      s[4 * c + (r + 2) % 4]! s[4 * c + (r + 3) % 4]!) := by
  unfold mixColumns
  rw [Array.getElem?_mapIdx, Array.getElem?_eq_getElem (by omega), Option.map_some]
  rw [show (4 * c + r) / 4 = c by omega, show (4 * c + r) % 4 = r by omega]
  rfl

theorem inj_mix : Inj mixColumns := by
  refine ⟨fun s => by simp [mixColumns], fun s t hs ht h => ?_⟩
  refine Array.ext (hs.trans ht.symm) fun j hj hj' => ?_
  have key : ∀ u : Array UInt8, u.size = 16 → ∀ c r, c < 4 → r < 4 →
      (mixColumns u)[4 * c + r]! = mix u[4 * c + r]! u[4 * c + (r + 1) % 4]!
      u[4 * c + (r + 2) % 4]! u[4 * c + (r + 3) % 4]! := by
    intro u hu c r hc hr
    rw [getElem!_def, mixColumns_get u hu c r hc hr]
  have hu : ∀ u : Array UInt8, u.size = 16 → ∀ c r, c < 4 → r < 4 → u[4 * c + r]! =
      unmix (mixColumns u)[4 * c + r]! (mixColumns u)[4 * c + (r + 1) % 4]!
        (mixColumns u)[4 * c + (r + 2) % 4]! (mixColumns u)[4 * c + (r + 3) % 4]! := by
    intro u hu c r hc hr
    rw [key u hu c r hc hr, key u hu c _ hc (Nat.mod_lt _ (by decide)),
      key u hu c _ hc (Nat.mod_lt _ (by decide)), key u hu c _ hc (Nat.mod_lt _ (by decide))]
    have e : r = 0 ∨ r = 1 ∨ r = 2 ∨ r = 3 := by omega
    rcases e with rfl | rfl | rfl | rfl <;> exact (unmix_mix _ _ _ _).symm
  have e : j = 4 * (j / 4) + j % 4 := by omega
  have h1 := hu s hs (j / 4) (j % 4) (by omega) (by omega)
  have h2 := hu t ht (j / 4) (j % 4) (by omega) (by omega)
  rw [h, ← h2, ← e, getElem!_pos s j hj, getElem!_pos t j hj'] at h1
  exact h1

/-- The rounds as a fold -/
theorem encryptBlock_eq (key block : Bytes) : encryptBlock key block =
    (addRoundKey (expandKey key) 14 (shiftRows (((List.range' 1 13).foldl (fun s r =>
      addRoundKey (expandKey key) r (mixColumns (shiftRows (s.map sbox))))
        (addRoundKey (expandKey key) 0 block.toArray)).map sbox))).toList := by
  unfold encryptBlock
  simp [Std.Legacy.Range.forIn_eq_forIn_range', Std.Legacy.Range.size]

theorem inj_fold (w : Array (Array UInt8)) (l : List Nat) : Inj fun s =>
    l.foldl (fun s r => addRoundKey w r (mixColumns (shiftRows (s.map sbox)))) s := by
  induction l with
  | nil => exact ⟨fun _ => rfl, fun _ _ _ _ h => h⟩
  | cons r l ih =>
    exact Inj.comp (g := fun s => addRoundKey w r (mixColumns (shiftRows (s.map sbox)))) ih
      ((inj_add w r).comp (inj_mix.comp (inj_shift.comp inj_sub)))

theorem inj_encrypt (w : Array (Array UInt8)) : Inj fun s =>
    addRoundKey w 14 (shiftRows (((List.range' 1 13).foldl (fun s r =>
      addRoundKey w r (mixColumns (shiftRows (s.map sbox)))) (addRoundKey w 0 s)).map sbox)) :=
  (inj_add w 14).comp (inj_shift.comp (inj_sub.comp ((inj_fold w _).comp (inj_add w 0))))

theorem encryptBlock_length (key block : Bytes) :
    (encryptBlock key block).length = block.length := by
  rw [encryptBlock_eq, Array.length_toList]
  exact ((inj_encrypt _).1 _).trans (by simp)

theorem encryptBlock_injective (key x y : Bytes) (hx : x.length = 16) (hy : y.length = 16)
    (h : encryptBlock key x = encryptBlock key y) : x = y := by
  rw [encryptBlock_eq, encryptBlock_eq] at h
  have := (inj_encrypt _).2 x.toArray y.toArray (by simpa) (by simpa) (Array.toList_inj.1 h)
  simpa using this

end Pasta.Real.Aes

namespace Pasta.Real

theorem aes256_injective (k : BytesN 32) (x y : BytesN 16) (h : prims.aes256 k x = prims.aes256 k y) :
    x = y := by
  have h : fit 16 (Aes.encryptBlock k.1 x.1) = fit 16 (Aes.encryptBlock k.1 y.1) := h
  have fit_val : ∀ z : BytesN 16, (fit 16 (Aes.encryptBlock k.1 z.1)).1 = Aes.encryptBlock k.1 z.1 := by
    intro z
    have : (Aes.encryptBlock k.1 z.1).length = 16 := (Aes.encryptBlock_length _ _).trans z.2
    simp only [fit, this, Nat.sub_self, List.replicate_zero, List.append_nil]
    exact List.take_of_length_le (Nat.le_of_eq this)
  refine Subtype.ext (Aes.encryptBlock_injective k.1 _ _ x.2 y.2 ?_)
  rw [← fit_val x, ← fit_val y, h]

end Pasta.Real
