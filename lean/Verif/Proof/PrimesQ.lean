import Verif.Proof.Primes
/-!
# Primality of the largest prime factor of the cofactor of the twist
-/

set_option exponentiation.threshold 2000

namespace Primes

theorem prime_587 : Nat.Prime 587 := by norm_num

theorem prime_233 : Nat.Prime 233 := by norm_num

theorem prime_1367711 : Nat.Prime 1367711 := by
  have s0 := pock_step 1367711 2 587 1 2330 21 prime_587 (by norm_num) (by norm_num)
    (by norm_num) (by norm_num) (by decide +kernel) (by decide +kernel)
  have s1 := pock_step 1367711 2 233 1 5870 21 prime_233 (by norm_num) (by norm_num)
    (by norm_num) (by norm_num) (by decide +kernel) (by decide +kernel)
  refine pock (F := 136771) (by norm_num) (by norm_num) fun d hd hn => ?_
  have t0 : 587 ∣ d - 1 := by simpa using s0 d hd hn
  have u1 : 233 ∣ d - 1 := by simpa using s1 d hd hn
  have t1 : 136771 ∣ d - 1 := by
    have := Nat.Coprime.mul_dvd_of_dvd_of_dvd (by norm_num) t0 u1
    simpa using this
  exact t1

theorem prime_541 : Nat.Prime 541 := by norm_num

theorem prime_12192593745179 : Nat.Prime 12192593745179 := by
  have s0 := pock_step 12192593745179 2 1367711 1 8914598 44 prime_1367711 (by norm_num) (by norm_num)
    (by norm_num) (by norm_num) (by decide +kernel) (by decide +kernel)
  have s1 := pock_step 12192593745179 2 541 1 22537141858 44 prime_541 (by norm_num) (by norm_num)
    (by norm_num) (by norm_num) (by decide +kernel) (by decide +kernel)
  refine pock (F := 739931651) (by norm_num) (by norm_num) fun d hd hn => ?_
  have t0 : 1367711 ∣ d - 1 := by simpa using s0 d hd hn
  have u1 : 541 ∣ d - 1 := by simpa using s1 d hd hn
  have t1 : 739931651 ∣ d - 1 := by
    have := Nat.Coprime.mul_dvd_of_dvd_of_dvd (by norm_num) t0 u1
    simpa using this
  exact t1

theorem prime_512088937297519 : Nat.Prime 512088937297519 := by
  have s0 := pock_step 512088937297519 2 12192593745179 1 42 49 prime_12192593745179 (by norm_num) (by norm_num)
    (by norm_num) (by norm_num) (by decide +kernel) (by decide +kernel)
  refine pock (F := 12192593745179) (by norm_num) (by norm_num) fun d hd hn => ?_
  simpa using s0 d hd hn

theorem prime_1857858664515398933 : Nat.Prime 1857858664515398933 := by
  have s0 := pock_step 1857858664515398933 2 512088937297519 1 3628 61 prime_512088937297519 (by norm_num) (by norm_num)
    (by norm_num) (by norm_num) (by decide +kernel) (by decide +kernel)
  refine pock (F := 512088937297519) (by norm_num) (by norm_num) fun d hd hn => ?_
  simpa using s0 d hd hn

theorem prime_22294303974184787197 : Nat.Prime 22294303974184787197 := by
  have s0 := pock_step 22294303974184787197 2 1857858664515398933 1 12 65 prime_1857858664515398933 (by norm_num) (by norm_num)
    (by norm_num) (by norm_num) (by decide +kernel) (by decide +kernel)
  refine pock (F := 1857858664515398933) (by norm_num) (by norm_num) fun d hd hn => ?_
  simpa using s0 d hd hn

theorem prime_19931107752921199754119 : Nat.Prime 19931107752921199754119 := by
  have s0 := pock_step 19931107752921199754119 2 22294303974184787197 1 894 75 prime_22294303974184787197 (by norm_num) (by norm_num)
    (by norm_num) (by norm_num) (by decide +kernel) (by decide +kernel)
  refine pock (F := 22294303974184787197) (by norm_num) (by norm_num) fun d hd hn => ?_
  simpa using s0 d hd hn

theorem prime_81162125843606155545104998607900118769099783 : Nat.Prime 81162125843606155545104998607900118769099783 := by
  have s0 := pock_step 81162125843606155545104998607900118769099783 2 19931107752921199754119 1 4072133212551150901578 146 prime_19931107752921199754119 (by norm_num) (by norm_num)
    (by norm_num) (by norm_num) (by decide +kernel) (by decide +kernel)
  refine pock (F := 19931107752921199754119) (by norm_num) (by norm_num) fun d hd hn => ?_
  simpa using s0 d hd hn

theorem prime_26935696298915610574513298451669528361624243820491956655650666425177 : Nat.Prime 26935696298915610574513298451669528361624243820491956655650666425177 := by
  have s0 := pock_step 26935696298915610574513298451669528361624243820491956655650666425177 2 81162125843606155545104998607900118769099783 1 331875194481953911837672 224 prime_81162125843606155545104998607900118769099783 (by norm_num) (by norm_num)
    (by norm_num) (by norm_num) (by decide +kernel) (by decide +kernel)
  refine pock (F := 81162125843606155545104998607900118769099783) (by norm_num) (by norm_num) fun d hd hn => ?_
  simpa using s0 d hd hn

theorem prime_4638704574076146691498289350639807119782054683906549022985642612861209609656189848749536921852444848596916990932297 : Nat.Prime 4638704574076146691498289350639807119782054683906549022985642612861209609656189848749536921852444848596916990932297 := by
  have s0 := pock_step 4638704574076146691498289350639807119782054683906549022985642612861209609656189848749536921852444848596916990932297 2 26935696298915610574513298451669528361624243820491956655650666425177 1 172214021222941014338396330402661971150362189448 381 prime_26935696298915610574513298451669528361624243820491956655650666425177 (by norm_num) (by norm_num)
    (by norm_num) (by norm_num) (by decide +kernel) (by decide +kernel)
  refine pock (F := 26935696298915610574513298451669528361624243820491956655650666425177) (by norm_num) (by norm_num) fun d hd hn => ?_
  simpa using s0 d hd hn

/-- The largest prime factor of the cofactor of the twist. -/
theorem prime_402096035359507321594726366720466575392706800671181159425656785868777272553337714697862511267018014931937703598282857976535744623203249 : Nat.Prime 402096035359507321594726366720466575392706800671181159425656785868777272553337714697862511267018014931937703598282857976535744623203249 := by
  have s0 := pock_step 402096035359507321594726366720466575392706800671181159425656785868777272553337714697862511267018014931937703598282857976535744623203249 2 4638704574076146691498289350639807119782054683906549022985642612861209609656189848749536921852444848596916990932297 1 86682828996409959984 448 prime_4638704574076146691498289350639807119782054683906549022985642612861209609656189848749536921852444848596916990932297 (by norm_num) (by norm_num)
    (by norm_num) (by norm_num) (by decide +kernel) (by decide +kernel)
  refine pock (F := 4638704574076146691498289350639807119782054683906549022985642612861209609656189848749536921852444848596916990932297) (by norm_num) (by norm_num) fun d hd hn => ?_
  simpa using s0 d hd hn

end Primes
