import Verif.Props.Passwords

/-!
# C71: the V3 password key is that of RFC 8018

The implementation in `Real` (like the `pbkdf2` crate) computes the two keyed states of HMAC once and
then iterates the compression function. Here it is compared with the definition in the RFC.
-/

namespace Pasta.C71

open Real

/-- `U_1 = PRF(P, S || INT(1))`, `U_{j+1} = PRF(P, U_j)` (RFC 8018, section 5.2), with HMAC-SHA384.
The argument is `j - 1`. -/
def pbkdf2U (pw salt : Bytes) : Nat → Bytes
  | 0 => (hmacSha384 pw (salt ++ [0, 0, 0, 1])).1
  | j + 1 => (hmacSha384 pw (pbkdf2U pw salt j)).1

/-- `T_1 = U_1 xor U_2 xor … xor U_{j+1}` -/
def pbkdf2T (pw salt : Bytes) : Nat → Bytes
  | 0 => pbkdf2U pw salt 0
  | j + 1 => List.zipWith (· ^^^ ·) (pbkdf2T pw salt j) (pbkdf2U pw salt (j + 1))

/-- The last step of SHA-384. -/
def finish (h : Array UInt64) : Bytes :=
  ((h.toList.map (fun w => beBytes 8 w.toNat)).flatten).take 48

/-- The second block of a message of 176 bytes. -/
def padded (d : Bytes) : Bytes :=
  d ++ [0x80] ++ List.replicate 63 0 ++ beBytes 16 (8 * (128 + 48))

theorem compress_size (h : Array UInt64) (b : Bytes) : (Sha2.compress h b).size = 8 := rfl

theorem flatten_length (l : List UInt64) :
    ((l.map (fun w => beBytes 8 w.toNat)).flatten).length = 8 * l.length := by
  induction l with
  | nil => rfl
  | cons a l ih =>
    rw [List.map_cons, List.flatten_cons, List.length_append, ih]
    have : (beBytes 8 a.toNat).length = 8 := by simp [beBytes, leBytes_length]
    rw [this, List.length_cons]
    omega

theorem sha384_two (b d : Bytes) (hb : b.length = 128) (hd : d.length = 48) :
    (sha384 (b ++ d)).1 = finish (Sha2.compress (Sha2.compress Sha2.iv384 b) (padded d)) := by
  have hp : Sha2.pad (b ++ d) = b ++ padded d := by
    unfold Sha2.pad padded
    simp only [List.length_append, hb, hd, List.append_assoc]
  have hpl : (padded d).length = 128 := by
    simp [padded, hd, beBytes, leBytes_length]
  have hr : Sha2.run Sha2.iv384 (b ++ d) =
      ((Sha2.compress (Sha2.compress Sha2.iv384 b) (padded d)).toList.map
        (fun w => beBytes 8 w.toNat)).flatten := by
    unfold Sha2.run
    dsimp only
    rw [hp]
    have : (b ++ padded d).length / 128 = 2 := by
      rw [List.length_append, hb, hpl]
    rw [this]
    have h1 : (b ++ padded d).take 128 = b := by rw [← hb, List.take_left]
    have h2 : (b ++ padded d).drop 128 = padded d := by rw [← hb, List.drop_left]
    have h3 : (padded d).take 128 = padded d := List.take_of_length_le (by omega)
    show ((Sha2.blocks _ 2 _).toList.map _).flatten = _
    rw [Sha2.blocks, Sha2.blocks, Sha2.blocks, h1, h2, h3]
  unfold sha384 fit finish
  dsimp only
  rw [hr, flatten_length]
  have : (Sha2.compress (Sha2.compress Sha2.iv384 b) (padded d)).toList.length = 8 := by
    rw [Array.length_toList, compress_size]
  rw [this]
  simp

theorem hmacKey_len (pw : Bytes) : (hmacKey pw).length = 128 := by
  unfold hmacKey
  dsimp only
  split
  · have := (sha384 pw).2
    simp only [List.length_append, List.length_replicate]
    omega
  · simp only [List.length_append, List.length_replicate]
    omega

theorem hmac_two (pw d : Bytes) (hd : d.length = 48) :
    (hmacSha384 pw d).1 =
      finish (Sha2.compress (Sha2.compress Sha2.iv384 ((hmacKey pw).map (· ^^^ 0x5c)))
        (padded (finish (Sha2.compress (Sha2.compress Sha2.iv384 ((hmacKey pw).map (· ^^^ 0x36)))
          (padded d))))) := by
  show (sha384 ((hmacKey pw).map (· ^^^ 0x5c) ++ (sha384 ((hmacKey pw).map (· ^^^ 0x36) ++ d)).1)).1 = _
  rw [sha384_two _ (sha384 _).1 (by rw [List.length_map, hmacKey_len]) (sha384 _).2,
    sha384_two _ d (by rw [List.length_map, hmacKey_len]) hd]

theorem u_length (pw salt : Bytes) (j : Nat) : (pbkdf2U pw salt j).length = 48 := by
  cases j
  · exact (hmacSha384 _ _).2
  · exact (hmacSha384 _ _).2

/-- One iteration. -/
def step (pw : Bytes) (s : Bytes × Bytes) : Bytes × Bytes :=
  let u := finish (Sha2.compress (Sha2.compress Sha2.iv384 ((hmacKey pw).map (· ^^^ 0x5c)))
    (padded (finish (Sha2.compress (Sha2.compress Sha2.iv384 ((hmacKey pw).map (· ^^^ 0x36)))
      (padded s.1)))))
  (u, List.zipWith (· ^^^ ·) s.2 u)

theorem hmac_hmacKey (pw m : Bytes) : hmacSha384 (hmacKey pw) m = hmacSha384 pw m := by
  show sha384 _ = sha384 _
  have h : hmacKey (hmacKey pw) = hmacKey pw := by
    rw [hmacKey_short (Nat.le_of_eq (hmacKey_len pw)), hmacKey_len]
    exact List.append_nil _
  show sha384 ((hmacKey (hmacKey pw)).map (· ^^^ 0x5c) ++
      (sha384 ((hmacKey (hmacKey pw)).map (· ^^^ 0x36) ++ m)).1) =
    sha384 ((hmacKey pw).map (· ^^^ 0x5c) ++ (sha384 ((hmacKey pw).map (· ^^^ 0x36) ++ m)).1)
  rw [h]

theorem loop_eq (pw salt : Bytes) (rounds : UInt32) :
    pbkdf2Sha384 pw salt rounds =
      fit 32 ((List.range' 1 (rounds.toNat - 1)).foldl (fun s _ => step pw s)
        ((hmacSha384 (hmacKey pw) (salt ++ [0, 0, 0, 1])).1,
          (hmacSha384 (hmacKey pw) (salt ++ [0, 0, 0, 1])).1)).2 := by
  unfold pbkdf2Sha384
  simp only [Std.Legacy.Range.forIn_eq_forIn_range', Std.Legacy.Range.size, List.forIn_pure_yield_eq_foldl,
    Id.run_bind, Id.run_pure, Nat.add_sub_cancel, Nat.div_one]
  rfl

theorem step_eq (pw salt : Bytes) (j : Nat) :
    step pw (pbkdf2U pw salt j, pbkdf2T pw salt j) =
      (pbkdf2U pw salt (j + 1), pbkdf2T pw salt (j + 1)) := by
  have h : (step pw (pbkdf2U pw salt j, pbkdf2T pw salt j)).1 = pbkdf2U pw salt (j + 1) :=
    (hmac_two pw _ (u_length pw salt j)).symm
  refine Prod.ext h ?_
  show List.zipWith _ _ (step pw (pbkdf2U pw salt j, pbkdf2T pw salt j)).1 = _
  rw [h]
  rfl

theorem steps_eq (pw salt : Bytes) (n : Nat) : ∀ i j,
    (List.range' i n).foldl (fun s _ => step pw s) (pbkdf2U pw salt j, pbkdf2T pw salt j) =
      (pbkdf2U pw salt (j + n), pbkdf2T pw salt (j + n)) := by
  induction n with
  | zero => intro i j; rfl
  | succ n ih =>
    intro i j
    rw [List.range'_succ, List.foldl_cons, step_eq, ih]
    rw [show j + 1 + n = j + (n + 1) by omega]

theorem t_length (pw salt : Bytes) (j : Nat) : (pbkdf2T pw salt j).length = 48 := by
  induction j with
  | zero => exact u_length pw salt 0
  | succ j ih => rw [pbkdf2T, List.length_zipWith, ih, u_length]; rfl

/-- The V3 key encryption key is the one RFC 8018 defines: the first 32 bytes of
`U_1 xor … xor U_c`, where `c` is the stored iteration count (and an iteration count of zero counts as
one). -/
theorem v3_rfc8018 (pw : Bytes) (salt : BytesN (pwSaltLen .V3)) (st : KdfState .V3) :
    ∃ kek, pwKdf prims .V3 pw salt st = .ok kek ∧
      kek.1 = (pbkdf2T pw salt.1 (st.iterations.toNat - 1)).take 32 := by
  refine ⟨pbkdf2Sha384 pw salt.1 st.iterations, rfl, ?_⟩
  rw [loop_eq, hmac_hmacKey]
  have := steps_eq pw salt.1 (st.iterations.toNat - 1) 1 0
  rw [Nat.zero_add] at this
  show (fit 32 (List.foldl _ (pbkdf2U pw salt.1 0, pbkdf2T pw salt.1 0) _).2).1 = _
  rw [this]
  unfold fit
  dsimp only
  rw [t_length]
  exact List.append_nil _

/-- One and no iteration give the same key: the one of the first block. -/
theorem v3_zero_iterations (pw : Bytes) (salt : BytesN (pwSaltLen .V3)) (st st' : KdfState .V3)
    (h : st.iterations = 0) (h' : st'.iterations = 1) :
    pwKdf prims .V3 pw salt st = pwKdf prims .V3 pw salt st' := by
  obtain ⟨a, ha, ha'⟩ := v3_rfc8018 pw salt st
  obtain ⟨b, hb, hb'⟩ := v3_rfc8018 pw salt st'
  rw [ha, hb]
  rw [h] at ha'
  rw [h'] at hb'
  exact congrArg Res.ok (Subtype.ext (ha'.trans hb'.symm))

/-- With two iterations, the second is really there: the key is `U_1 xor U_2`. -/
example (pw : Bytes) (salt : BytesN (pwSaltLen .V3)) (st : KdfState .V3) (h : st.iterations = 2) :
    ∃ kek, pwKdf prims .V3 pw salt st = .ok kek ∧
      kek.1 = (List.zipWith (· ^^^ ·) (hmacSha384 pw (salt.1 ++ [0, 0, 0, 1])).1
        (hmacSha384 pw (hmacSha384 pw (salt.1 ++ [0, 0, 0, 1])).1).1).take 32 := by
  obtain ⟨a, ha, ha'⟩ := v3_rfc8018 pw salt st
  rw [h] at ha'
  exact ⟨a, ha, ha'⟩

end Pasta.C71
