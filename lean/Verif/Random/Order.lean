import Verif.Random.Compute
import Verif.Random.Primes
import Mathlib.Data.Fintype.Card
import Mathlib.Data.Fintype.EquivFin
import Mathlib.Tactic.NormNum
import Mathlib.Data.Nat.Bitwise
import Mathlib.Dynamics.PeriodicPts.Defs

/-!
Helper lemmas: the effect of `jump_impl` and the order of `next`.
-/
namespace Verif.Random

theorem jumpBit_eq (w : BitVec 64) (p : St × St) (k : Nat) (hk : k < 64) :
    jumpBit w p k = (p.1 + (if w.toNat.testBit k then p.2 else 0), next p.2) := by
  have hone : (1#64 <<< k).toNat = 2 ^ k := by
    rw [BitVec.toNat_shiftLeft, Nat.shiftLeft_eq, BitVec.toNat_ofNat]
    rw [Nat.mod_eq_of_lt (show 1 < 2 ^ 64 by decide), one_mul]
    exact Nat.mod_eq_of_lt (Nat.pow_lt_pow_right (by decide) (by omega))
  have hiff : (w &&& (1#64 <<< k) ≠ 0) ↔ w.toNat.testBit k = true := by
    rw [ne_eq, ← BitVec.toNat_inj, BitVec.toNat_and, hone]
    rw [Nat.and_comm, Nat.two_pow_and]
    cases h : w.toNat.testBit k <;> simp
  unfold jumpBit
  by_cases h : w.toNat.testBit k = true
  · rw [if_pos (hiff.2 h), if_pos h]; rfl
  · rw [if_neg (fun hh => h (hiff.1 hh)), if_neg h, add_zero]

theorem jumpBits_eq (w : BitVec 64) (p : St × St) (n : Nat) (hn : n ≤ 64) :
    (List.range n).foldl (jumpBit w) p = (p.1 + act (w.toNat % 2 ^ n) p.2, (T ^ n) p.2) := by
  induction n with
  | zero => simp [Nat.mod_one, act_zero]
  | succ n ih =>
    rw [List.range_succ, List.foldl_append, ih (by omega), List.foldl_cons, List.foldl_nil,
      jumpBit_eq _ _ _ (by omega), mod_pow_succ_testBit]
    refine Prod.ext ?_ ?_
    · show _ + _ + _ = _
      cases w.toNat.testBit n
      · simp
      · simp only [if_true, act_xor, act_shift, act_one, mul_one]
        rw [add_assoc, add_comm (act _ _)]; rfl
    · show next _ = _
      rw [pow_succ']; rfl

theorem jumpWord_eq (w : BitVec 64) (p : St × St) :
    jumpWord p w = (p.1 + act w.toNat p.2, (T ^ 64) p.2) := by
  rw [jumpWord, jumpBits_eq _ _ _ (le_refl _), Nat.mod_eq_of_lt w.isLt]

/-- The polynomial coded by an array of 64-bit words, least significant word first. -/
def pack : List (BitVec 64) → Nat
  | [] => 0
  | w :: ws => w.toNat ^^^ (pack ws * 2 ^ 64)

theorem jumpWords_eq (ws : List (BitVec 64)) (p : St × St) :
    (ws.foldl jumpWord p).1 = p.1 + act (pack ws) p.2 := by
  induction ws generalizing p with
  | nil => simp [pack, act_zero]
  | cons w ws ih =>
    have hc : T ^ 64 * act (pack ws) = act (pack ws) * T ^ 64 := by
      have : Commute T (act (pack ws)) := T_act_comm _
      exact (this.pow_left 64).eq
    rw [List.foldl_cons, ih, jumpWord_eq, pack, act_xor, act_shift, hc]
    generalize T ^ 64 = U
    exact add_assoc _ _ _

theorem jumpImpl_eq (ws : List (BitVec 64)) (m : St) : jumpImpl ws m = act (pack ws) m := by
  rw [jumpImpl, jumpWords_eq]
  exact zero_add _

set_option maxRecDepth 100000 in
theorem pw_jump : powLoop (2 ^ 128) 129 1 =
    pack [0x180ec6d33cfd0aba, 0xd5a61266f0c9392c, 0xa9582618e03fc9aa, 0x39abdc4529b1661c] := by
  decide +kernel

set_option maxRecDepth 100000 in
theorem pw_long_jump : powLoop (2 ^ 192) 193 1 =
    pack [0x76e15d3efefdcbbf, 0xc5004e441c522fb3, 0x77710069854ee241, 0x39109bb02acbe635] := by
  decide +kernel

set_option maxRecDepth 100000 in
theorem pw_full : powLoop (2 ^ 256 - 1) 256 1 = 1 := by decide +kernel

theorem T_pow_full : T ^ (2 ^ 256 - 1) = 1 := by
  rw [act_pow act_chi (2 ^ 256 - 1) 256 1 (by decide) pw_full, act_one]

theorem iter_full (s : St) : next^[2 ^ 256 - 1] s = s := by
  rw [← T_pow_apply, T_pow_full]; rfl

/-- If `x^e - 1` is invertible modulo `chi` then `next^e` fixes only the zero state. -/
theorem fix_zero (hchi : act chi = 0) (e r v : Nat) (he : e < 2 ^ 256) (hv : v < 2 ^ 256)
    (hp : powLoop e 256 1 = r) (hm : mulmod v (r ^^^ 1) = 1) (s : St) (h : next^[e] s = s) : s = 0 := by
  have h1 := act_mulmod hchi v (r ^^^ 1) hv
  rw [hm, act_one, act_xor, act_one, ← act_pow hchi e 256 r he hp] at h1
  have h2 : (1 : E) s = (act v * (T ^ e + 1)) s := by rw [← h1]
  have h3 : (T ^ e + 1 : E) s = 0 := by
    show (T ^ e) s + s = 0
    rw [T_pow_apply, h]; exact add_self' s
  have h4 : (act v * (T ^ e + 1)) s = act v ((T ^ e + 1 : E) s) := rfl
  rw [h4, h3, map_zero] at h2
  exact h2

set_option maxRecDepth 100000 in
theorem pw_3 : powLoop 38597363079105398474523661669562635951089994888546854679819194669304376546645 256 1 = 0x54d6a48aae687fb68b7f13ce6607e276afab085596734aa97762f281b25ed783 := by decide +kernel
theorem iv_3 : mulmod 0x54d6a48aae687fb68b7f13ce6607e276afab085596734aa97762f281b25ed783 (0x54d6a48aae687fb68b7f13ce6607e276afab085596734aa97762f281b25ed783 ^^^ 1) = 1 := by decide +kernel
theorem fix_3 (s : St) (h : next^[38597363079105398474523661669562635951089994888546854679819194669304376546645] s = s) : s = 0 :=
  fix_zero act_chi _ _ _ (by norm_num) (by norm_num) pw_3 iv_3 s h

set_option maxRecDepth 100000 in
theorem pw_5 : powLoop 23158417847463239084714197001737581570653996933128112807891516801582625927987 256 1 = 0x6ec9cd129895d052616a564f042be5956a2075f39c3d432635ad7e8b44cbcdcd := by decide +kernel
theorem iv_5 : mulmod 0x9b17f5767b72e1a3c673d4c3e369b20235e972559753b37fdedc95dc103781f (0x6ec9cd129895d052616a564f042be5956a2075f39c3d432635ad7e8b44cbcdcd ^^^ 1) = 1 := by decide +kernel
theorem fix_5 (s : St) (h : next^[23158417847463239084714197001737581570653996933128112807891516801582625927987] s = s) : s = 0 :=
  fix_zero act_chi _ _ _ (by norm_num) (by norm_num) pw_5 iv_5 s h

set_option maxRecDepth 100000 in
theorem pw_17 : powLoop 6811299366900952671974763824040465167839410862684739061144563765171360567055 256 1 = 0x90269340057d7ee7eb21d977cf20f3dc38da22c5375471f2a0a830a7ef328ee9 := by decide +kernel
theorem iv_17 : mulmod 0xf4646ef27133b2d46393a4c40448d75b8f3adcab0a20793ef8bb26f5b81e7ecf (0x90269340057d7ee7eb21d977cf20f3dc38da22c5375471f2a0a830a7ef328ee9 ^^^ 1) = 1 := by decide +kernel
theorem fix_17 (s : St) (h : next^[6811299366900952671974763824040465167839410862684739061144563765171360567055] s = s) : s = 0 :=
  fix_zero act_chi _ _ _ (by norm_num) (by norm_num) pw_17 iv_17 s h

set_option maxRecDepth 100000 in
theorem pw_257 : powLoop 450552876409790643671482431940419874915447411150352389258589821042463539455 256 1 = 0xfdb7756e6ac858fd6732aab4918d7df125c6c922eca444e8a2a0bb43afdb4f25 := by decide +kernel
theorem iv_257 : mulmod 0x618e9a9a97b4105e9870464ee696824b10a336ec58f59159b1165cabfe23cd76 (0xfdb7756e6ac858fd6732aab4918d7df125c6c922eca444e8a2a0bb43afdb4f25 ^^^ 1) = 1 := by decide +kernel
theorem fix_257 (s : St) (h : next^[450552876409790643671482431940419874915447411150352389258589821042463539455] s = s) : s = 0 :=
  fix_zero act_chi _ _ _ (by norm_num) (by norm_num) pw_257 iv_257 s h

set_option maxRecDepth 100000 in
theorem pw_65537 : powLoop 1766820105243087041267848467410591083712559083657179364930612997358944255 256 1 = 0xb676779c1ec18ee71ca799db6f5623d0f6f65e508c7029e05dafe16943ddddf8 := by decide +kernel
theorem iv_65537 : mulmod 0x5b7382b05dc5a20686e618650a39fab806017ce589bb2d98cf9b5a05139e793f (0xb676779c1ec18ee71ca799db6f5623d0f6f65e508c7029e05dafe16943ddddf8 ^^^ 1) = 1 := by decide +kernel
theorem fix_65537 (s : St) (h : next^[1766820105243087041267848467410591083712559083657179364930612997358944255] s = s) : s = 0 :=
  fix_zero act_chi _ _ _ (by norm_num) (by norm_num) pw_65537 iv_65537 s h

set_option maxRecDepth 100000 in
theorem pw_641 : powLoop 180642884925610289272341630278764286822574079041560942339247400948382417535 256 1 = 0x581da52f86332ea661bcbb2b555ce0f02e9815440881e2bf78b880b86010e91c := by decide +kernel
theorem iv_641 : mulmod 0x56ced9120f236c15fdd49ed161d46abc0269afa58693de573c5dcc0645c4b0ff (0x581da52f86332ea661bcbb2b555ce0f02e9815440881e2bf78b880b86010e91c ^^^ 1) = 1 := by decide +kernel
theorem fix_641 (s : St) (h : next^[180642884925610289272341630278764286822574079041560942339247400948382417535] s = s) : s = 0 :=
  fix_zero act_chi _ _ _ (by norm_num) (by norm_num) pw_641 iv_641 s h

set_option maxRecDepth 100000 in
theorem pw_6700417 : powLoop 17281325809619937896935516850471830014948321076977830490170624307101055 256 1 = 0xc6450b829be1a76226abe4270fff410101352a4c92d48efe19b67cdd3c86a7ed := by decide +kernel
theorem iv_6700417 : mulmod 0x1c10854fe79f6066b6b1fe5c68be2282e701b5777ef01c8fd5b0ea5458d18c36 (0xc6450b829be1a76226abe4270fff410101352a4c92d48efe19b67cdd3c86a7ed ^^^ 1) = 1 := by decide +kernel
theorem fix_6700417 (s : St) (h : next^[17281325809619937896935516850471830014948321076977830490170624307101055] s = s) : s = 0 :=
  fix_zero act_chi _ _ _ (by norm_num) (by norm_num) pw_6700417 iv_6700417 s h

set_option maxRecDepth 100000 in
theorem pw_274177 : powLoop 422326049367073807881663979869529201403728192611490256438204459192102655 256 1 = 0xe5a556c3c9e400e198126a39102fcc20f4c3663facb3240e1d771075d04e50d8 := by decide +kernel
theorem iv_274177 : mulmod 0x24d5461cfd63732f63b6b60adc840b312db07c0c8c7b46872d3955d70f9e6ac5 (0xe5a556c3c9e400e198126a39102fcc20f4c3663facb3240e1d771075d04e50d8 ^^^ 1) = 1 := by decide +kernel
theorem fix_274177 (s : St) (h : next^[422326049367073807881663979869529201403728192611490256438204459192102655] s = s) : s = 0 :=
  fix_zero act_chi _ _ _ (by norm_num) (by norm_num) pw_274177 iv_274177 s h

set_option maxRecDepth 100000 in
theorem pw_67280421310721 : powLoop 1721036922503113971692907638171526209875755521904893141463060735 256 1 = 0x2fbf5d361feea8bd9fc94ae35bf3f6a76338c186cf6f576a067bea15d2a4c5d4 := by decide +kernel
theorem iv_67280421310721 : mulmod 0xc3bc6f4888606c0bfb4a6ce96aa43d28506b49c1c962aba2928641dd24af8cf8 (0x2fbf5d361feea8bd9fc94ae35bf3f6a76338c186cf6f576a067bea15d2a4c5d4 ^^^ 1) = 1 := by decide +kernel
theorem fix_67280421310721 (s : St) (h : next^[1721036922503113971692907638171526209875755521904893141463060735] s = s) : s = 0 :=
  fix_zero act_chi _ _ _ (by norm_num) (by norm_num) pw_67280421310721 iv_67280421310721 s h

set_option maxRecDepth 100000 in
theorem pw_59649589127497217 : powLoop 1941205143757452242770874767385119893385096602219740994029055 256 1 = 0x9ca884016a9ae0ccc7d474a8d84519140837e437505a90a217cc3ecd3bb53a6 := by decide +kernel
theorem iv_59649589127497217 : mulmod 0x2b0b5d0e0d5dcbfd343a0c7c13920e58856efc82f8b6f3e99a6368bb225afce6 (0x9ca884016a9ae0ccc7d474a8d84519140837e437505a90a217cc3ecd3bb53a6 ^^^ 1) = 1 := by decide +kernel
theorem fix_59649589127497217 (s : St) (h : next^[1941205143757452242770874767385119893385096602219740994029055] s = s) : s = 0 :=
  fix_zero act_chi _ _ _ (by norm_num) (by norm_num) pw_59649589127497217 iv_59649589127497217 s h

set_option maxRecDepth 100000 in
theorem pw_5704689200685129054721 : powLoop 20297703374166229616474325006177763232573806344580020735 256 1 = 0x3d5cb71a110f671392e965f9e4b713e93b04d92f3f0eaf518cdb42c9fdb2914c := by decide +kernel
theorem iv_5704689200685129054721 : mulmod 0xca8fcba3c0dd08871d4e3f7290e3e7fb8436109b90a55fd4bc6fe9d31b611e5 (0x3d5cb71a110f671392e965f9e4b713e93b04d92f3f0eaf518cdb42c9fdb2914c ^^^ 1) = 1 := by decide +kernel
theorem fix_5704689200685129054721 (s : St) (h : next^[20297703374166229616474325006177763232573806344580020735] s = s) : s = 0 :=
  fix_zero act_chi _ _ _ (by norm_num) (by norm_num) pw_5704689200685129054721 iv_5704689200685129054721 s h

theorem prime_dvd_full (q : Nat) (hq : q.Prime) (h : q ∣ 2 ^ 256 - 1) :
    q = 3 ∨ q = 5 ∨ q = 17 ∨ q = 257 ∨ q = 65537 ∨ q = 641 ∨ q = 6700417 ∨ q = 274177 ∨
    q = 67280421310721 ∨ q = 59649589127497217 ∨ q = 5704689200685129054721 := by
  have hd : q ∣ 3 ^ 1 * (5 ^ 1 * (17 ^ 1 * (257 ^ 1 * (65537 ^ 1 * (641 ^ 1 * (6700417 ^ 1 * (274177 ^ 1 *
      (67280421310721 ^ 1 * (59649589127497217 ^ 1 * (5704689200685129054721 ^ 1 * 1)))))))))) := by
    simpa using h
  rcases prime_dvd_pow_mul hq Nat.prime_three hd with rfl | hd
  · simp
  rcases prime_dvd_pow_mul hq Nat.prime_five hd with rfl | hd
  · simp
  rcases prime_dvd_pow_mul hq (by norm_num) hd with rfl | hd
  · simp
  rcases prime_dvd_pow_mul hq (by norm_num) hd with rfl | hd
  · simp
  rcases prime_dvd_pow_mul hq prime_65537 hd with rfl | hd
  · simp
  rcases prime_dvd_pow_mul hq (by norm_num) hd with rfl | hd
  · simp
  rcases prime_dvd_pow_mul hq prime_6700417 hd with rfl | hd
  · simp
  rcases prime_dvd_pow_mul hq prime_274177 hd with rfl | hd
  · simp
  rcases prime_dvd_pow_mul hq prime_67280421310721 hd with rfl | hd
  · simp
  rcases prime_dvd_pow_mul hq prime_59649589127497217 hd with rfl | hd
  · simp
  rcases prime_dvd_pow_mul hq prime_5704689200685129054721 hd with rfl | hd
  · simp
  exact (prime_dvd_one hq hd).elim

theorem iter_congr {m n : Nat} {s : St} (h : m = n) (hs : next^[m] s = s) : next^[n] s = s := h ▸ hs

theorem fix_div_prime (q : Nat) (hq : q.Prime) (h : q ∣ 2 ^ 256 - 1) (s : St)
    (hs : next^[(2 ^ 256 - 1) / q] s = s) : s = 0 := by
  rcases prime_dvd_full q hq h with rfl | rfl | rfl | rfl | rfl | rfl | rfl | rfl | rfl | rfl | rfl
  · exact fix_3 s (iter_congr (by decide) hs)
  · exact fix_5 s (iter_congr (by decide) hs)
  · exact fix_17 s (iter_congr (by decide) hs)
  · exact fix_257 s (iter_congr (by decide) hs)
  · exact fix_65537 s (iter_congr (by decide) hs)
  · exact fix_641 s (iter_congr (by decide) hs)
  · exact fix_6700417 s (iter_congr (by decide) hs)
  · exact fix_274177 s (iter_congr (by decide) hs)
  · exact fix_67280421310721 s (iter_congr (by decide) hs)
  · exact fix_59649589127497217 s (iter_congr (by decide) hs)
  · exact fix_5704689200685129054721 s (iter_congr (by decide) hs)

theorem iter_mul_fixed (s : St) (d k : Nat) (h : next^[d] s = s) : next^[k * d] s = s := by
  induction k with
  | zero => simp
  | succ k ih => rw [Nat.succ_mul, Function.iterate_add_apply, h, ih]

theorem period_iff (s : St) (hs : s ≠ 0) (n : Nat) : next^[n] s = s ↔ (2 ^ 256 - 1) ∣ n := by
  constructor
  · intro h
    have hper : Function.IsPeriodicPt next n s := h
    have hfull : Function.IsPeriodicPt next (2 ^ 256 - 1) s := iter_full s
    have hg := hper.gcd hfull
    have hdv : n.gcd (2 ^ 256 - 1) ∣ 2 ^ 256 - 1 := Nat.gcd_dvd_right _ _
    generalize hgd : n.gcd (2 ^ 256 - 1) = d at hg hdv
    by_cases hd : d = 2 ^ 256 - 1
    · rw [← hd, ← hgd]; exact Nat.gcd_dvd_left _ _
    · exfalso; apply hs
      obtain ⟨c, hc⟩ := hdv
      have hc1 : c ≠ 1 := by rintro rfl; omega
      obtain ⟨q, hq, k, hk⟩ := Nat.exists_prime_and_dvd hc1
      have hqd : q ∣ 2 ^ 256 - 1 := ⟨d * k, by rw [hc, hk]; ring⟩
      have hdiv : (2 ^ 256 - 1) / q = k * d := by
        rw [hc, hk, show d * (q * k) = q * (k * d) by ring, Nat.mul_div_cancel_left _ hq.pos]
      exact fix_div_prime q hq hqd s (by rw [hdiv]; exact iter_mul_fixed s d k hg)
  · rintro ⟨k, rfl⟩
    rw [Nat.mul_comm]; exact iter_mul_fixed s _ k (iter_full s)

end Verif.Random
