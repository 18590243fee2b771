import Verif.Curve.Pocklington

/-!
# The primes of Curve25519 and P-384, and the order of P-384

Certificates: each number with the prime factors of its predecessor that exceed its square root.
-/

namespace Pasta.Curve

theorem prime_8574133 : Nat.Prime 8574133 := by norm_num

theorem prime_127 : Nat.Prime 127 := by norm_num

theorem prime_1919519569386763 : Nat.Prime 1919519569386763 :=
  prime_of_two 2 2 prime_8574133
    prime_127 (by decide +kernel) (by decide +kernel) (by decide +kernel)
    (by decide +kernel)

theorem prime_75707 : Nat.Prime 75707 := by norm_num

theorem prime_75445702479781427272750846543864801 : Nat.Prime 75445702479781427272750846543864801 :=
  prime_of_two 2 2 prime_1919519569386763
    prime_75707 (by decide +kernel) (by decide +kernel) (by decide +kernel)
    (by decide +kernel)

theorem prime_1923133 : Nat.Prime 1923133 := by norm_num

theorem prime_74058212732561358302231226437062788676166966415465897661863160754340907 : Nat.Prime 74058212732561358302231226437062788676166966415465897661863160754340907 :=
  prime_of_two 2 2 prime_75445702479781427272750846543864801
    prime_1923133 (by decide +kernel) (by decide +kernel) (by decide +kernel)
    (by decide +kernel)

theorem prime_25519 : Nat.Prime Real.Ed.p :=
  prime_of_one 2 prime_74058212732561358302231226437062788676166966415465897661863160754340907 (by decide +kernel) (by decide +kernel)

theorem prime_421 : Nat.Prime 421 := by norm_num

theorem prime_233 : Nat.Prime 233 := by norm_num

theorem prime_272109983 : Nat.Prime 272109983 :=
  prime_of_two 2 2 prime_421
    prime_233 (by decide +kernel) (by decide +kernel) (by decide +kernel)
    (by decide +kernel)

theorem prime_228572385721 : Nat.Prime 228572385721 :=
  prime_of_one 2 prime_272109983 (by decide +kernel) (by decide +kernel)

theorem prime_23314383343543 : Nat.Prime 23314383343543 :=
  prime_of_one 2 prime_228572385721 (by decide +kernel) (by decide +kernel)

theorem prime_426632512014427833817 : Nat.Prime 426632512014427833817 :=
  prime_of_one 2 prime_23314383343543 (by decide +kernel) (by decide +kernel)

theorem prime_1495199339761412565498084319 : Nat.Prime 1495199339761412565498084319 :=
  prime_of_one 2 prime_426632512014427833817 (by decide +kernel) (by decide +kernel)

theorem prime_17942392077136950785977011829 : Nat.Prime 17942392077136950785977011829 :=
  prime_of_one 2 prime_1495199339761412565498084319 (by decide +kernel) (by decide +kernel)

theorem prime_8463023 : Nat.Prime 8463023 := by norm_num

theorem prime_1059392654943455286185473617842338478315215895509773412096307 : Nat.Prime 1059392654943455286185473617842338478315215895509773412096307 :=
  prime_of_two 2 2 prime_17942392077136950785977011829
    prime_8463023 (by decide +kernel) (by decide +kernel) (by decide +kernel)
    (by decide +kernel)

theorem prime_3055465788140352002733946906144561090641249606160407884365391979704929268480326390471 : Nat.Prime 3055465788140352002733946906144561090641249606160407884365391979704929268480326390471 :=
  prime_of_one 2 prime_1059392654943455286185473617842338478315215895509773412096307 (by decide +kernel) (by decide +kernel)

theorem prime_n384 : Nat.Prime p384Order :=
  prime_of_one 2 prime_3055465788140352002733946906144561090641249606160407884365391979704929268480326390471 (by decide +kernel) (by decide +kernel)

theorem prime_363557 : Nat.Prime 363557 := by norm_num

theorem prime_532247449 : Nat.Prime 532247449 :=
  prime_of_one 2 prime_363557 (by decide +kernel) (by decide +kernel)

theorem prime_44925942675193 : Nat.Prime 44925942675193 :=
  prime_of_one 2 prime_532247449 (by decide +kernel) (by decide +kernel)

theorem prime_35581458644053887931343 : Nat.Prime 35581458644053887931343 :=
  prime_of_one 2 prime_44925942675193 (by decide +kernel) (by decide +kernel)

theorem prime_23964610537191310276190549303 : Nat.Prime 23964610537191310276190549303 :=
  prime_of_one 2 prime_35581458644053887931343 (by decide +kernel) (by decide +kernel)

theorem prime_862725979338887169942859774909 : Nat.Prime 862725979338887169942859774909 :=
  prime_of_one 2 prime_23964610537191310276190549303 (by decide +kernel) (by decide +kernel)

theorem prime_20705423504133292078628634597817 : Nat.Prime 20705423504133292078628634597817 :=
  prime_of_one 2 prime_862725979338887169942859774909 (by decide +kernel) (by decide +kernel)

theorem prime_413244619895455989650825325680172591660047 : Nat.Prime 413244619895455989650825325680172591660047 :=
  prime_of_one 2 prime_20705423504133292078628634597817 (by decide +kernel) (by decide +kernel)

theorem prime_12397338596863679689524759770405177749801411 : Nat.Prime 12397338596863679689524759770405177749801411 :=
  prime_of_one 2 prime_413244619895455989650825325680172591660047 (by decide +kernel) (by decide +kernel)

theorem prime_661 : Nat.Prime 661 := by norm_num

theorem prime_599 : Nat.Prime 599 := by norm_num

theorem prime_513928823 : Nat.Prime 513928823 :=
  prime_of_two 2 2 prime_661
    prime_599 (by decide +kernel) (by decide +kernel) (by decide +kernel)
    (by decide +kernel)

theorem prime_53448597593 : Nat.Prime 53448597593 :=
  prime_of_one 2 prime_513928823 (by decide +kernel) (by decide +kernel)

theorem prime_1357291859799823621 : Nat.Prime 1357291859799823621 :=
  prime_of_one 2 prime_53448597593 (by decide +kernel) (by decide +kernel)

theorem prime_19173790298027098165721053155794528970226934547887232785722672956982046098136719667167519737147526097 : Nat.Prime 19173790298027098165721053155794528970226934547887232785722672956982046098136719667167519737147526097 :=
  prime_of_two 2 2 prime_12397338596863679689524759770405177749801411
    prime_1357291859799823621 (by decide +kernel) (by decide +kernel) (by decide +kernel)
    (by decide +kernel)

theorem prime_p384 : Nat.Prime Real.P384.p :=
  prime_of_one 2 prime_19173790298027098165721053155794528970226934547887232785722672956982046098136719667167519737147526097 (by decide +kernel) (by decide +kernel)

end Pasta.Curve
