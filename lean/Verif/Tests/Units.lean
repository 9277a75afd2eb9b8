import Verif.Tests.Common
/- /repo/tests/size_suite.cpp and /repo/tests/time_suite.cpp (`size_t` and
`time_t` are 64 bits wide) -/
namespace Wjson.Tests
open Wjson

/-- `write_test`, /repo/tests/size_suite.cpp:6-15. -/
def sizeW (ty : IntTy) (metric v : Int) (json : Bytes) : Bool :=
  write (sizeSer gcc ty metric) v == some (jsonLit json)

/-- `read_test`, /repo/tests/size_suite.cpp:17-28. -/
def sizeR (ty : IntTy) (metric : Int) (json : Bytes) (v : Int) : Bool :=
  readOk (sizeSer gcc ty metric) 0 (jsonLit json) == some (v, false)

/-! `size1_write`, lines 31-70 -/
example : (∀ x ∈ [((0 : Int), b!"0"), (1, b!"1"), (33, b!"33"), (1000, b!"'1KB'"), (1024, b!"'1KiB'"), (1001, b!"1001"),
    (1000000, b!"'1MB'"), (1001000, b!"'1001KB'"), (1024*1024, b!"'1MiB'"), (1024*1001, b!"'1001KiB'"),
    (1001001, b!"1001001"), (1000000000, b!"'1GB'"), (1001000000, b!"'1001MB'"), (1001001000, b!"'1001001KB'"),
    (1024*1024*1024, b!"'1GiB'"), (1024*1024*1001, b!"'1001MiB'"), (1024*1001001, b!"'1001001KiB'"),
    (1001001001, b!"1001001001"), (1000000000000, b!"'1TB'"), (1001000000000, b!"'1001GB'"),
    (1001001000000, b!"'1001001MB'"), (1001001001000, b!"'1001001001KB'"), (1024*1024*1024*1024, b!"'1TiB'"),
    (1024*1024*1024*1001, b!"'1001GiB'"), (1024*1024*1001001, b!"'1001001MiB'"), (1024*1001001001, b!"'1001001001KiB'"),
    (1001001001001, b!"1001001001001")], sizeW .ulong 1 x.1 x.2) := by decide +kernel

/-! `size1000_write`, lines 72-97 -/
example : (∀ x ∈ [((0 : Int), b!"'0KB'"), (1, b!"'1KB'"), (33, b!"'33KB'"), (1000, b!"'1MB'"), (1001, b!"'1001KB'"),
    (1000000, b!"'1GB'"), (1001000, b!"'1001MB'"), (1001001, b!"'1001001KB'"), (1000000000, b!"'1TB'"),
    (1001000000, b!"'1001GB'"), (1001001000, b!"'1001001MB'"), (1001001001, b!"'1001001001KB'")],
    sizeW .ulong 1000 x.1 x.2) := by decide +kernel
example : sizeW .short 1000 30 b!"'30KB'" := by decide +kernel

/-! `size1024_write`, lines 99-117 -/
example : (∀ x ∈ [((0 : Int), b!"'0KiB'"), (1, b!"'1KiB'"), (33, b!"'33KiB'"), (1024, b!"'1MiB'"), (1025, b!"'1025KiB'"),
    (1024*1024, b!"'1GiB'"), (1024*1024*1024, b!"'1TiB'"), (1024*1024*1024 - 73741824, b!"'1024GB'")],
    sizeW .ulong 1024 x.1 x.2) := by decide +kernel

/-! `size1000000_write`, lines 119-142 -/
example : (∀ x ∈ [((0 : Int), b!"'0MB'"), (1, b!"'1MB'"), (33, b!"'33MB'"), (1000, b!"'1GB'"), (1001, b!"'1001MB'"),
    (1000000, b!"'1TB'"), (1001000, b!"'1001GB'"), (1001001, b!"'1001001MB'"), (1000000000, b!"'1000TB'"),
    (1001000000, b!"'1001TB'"), (1001001000, b!"'1001001GB'"), (1001001001, b!"'1001001001MB'")],
    sizeW .ulong 1000000 x.1 x.2) := by decide +kernel

/-! `size1_read`, lines 144-178 -/
example : (∀ x ∈ [(b!"'10TiB'", (10*1024*1024*1024*1024 : Int)), (b!"'10TB'", 10000000000000), (b!"'10GiB'", 10*1024*1024*1024),
    (b!"'10GB'", 10000000000), (b!"'10MiB'", 10*1024*1024), (b!"'10MB'", 10000000), (b!"'10KiB'", 10*1024),
    (b!"'10KB'", 10000), (b!"'10B'", 10), (b!"'10'", 10), (b!"10", 10)], sizeR .ulong 1 x.1 x.2) := by decide +kernel
example : (∀ x ∈ [(b!"'1GB'", (1000000000 : Int)), (b!"'10MB'", 10000000), (b!"'10KB'", 10000), (b!"'10B'", 10),
    (b!"'10'", 10), (b!"10", 10)], sizeR .int 1 x.1 x.2) := by decide +kernel
example : sizeR .ulong 1024 b!"'10TiB'" (10*1024*1024*1024) := by decide +kernel
example : sizeR .ulong 1000 b!"'10TB'" 10000000000 := by decide +kernel
example : sizeR .ulong (1024*1024) b!"'10TiB'" (10*1024*1024) := by decide +kernel
example : sizeR .ulong 1000000 b!"'10TB'" 10000000 := by decide +kernel

/-! /repo/tests/time_suite.cpp, `time_interval1`, lines 26-134 -/
example : (∀ x ∈ [((1568112168666 + 3600000 : Int), b!"\"18149d11h42m48s666ms\""), (999, b!"\"999ms\""), (1000, b!"\"1s\""),
    (1001, b!"\"1s1ms\""), (61001, b!"\"1m1s1ms\""), (3661*1000 + 1, b!"\"1h1m1s1ms\""),
    ((3600*24 + 3600 + 60 + 1)*1000 + 1, b!"\"1d1h1m1s1ms\"")], write (timeSer gcc .long 1000) x.1 = some x.2) := by
  decide +kernel
example : write (timeSer gcc .long 1000000) ((3600*24 + 3600 + 60 + 1)*1000000 + 1000 + 1) = some b!"\"1d1h1m1s1ms1mks\"" := by
  decide +kernel
example : readOk (timeSer gcc .long 1000) 0 b!"\"1d1h1m1s1ms1mks\"" = some ((3600*24 + 3600 + 60 + 1)*1000 + 1, false) := by
  decide +kernel
example : readOk (timeSer gcc .long 1000000) 0 b!"\"1234567890ms\"" = some (1234567890000, false) := by decide +kernel
example : readOk (timeSer gcc .long 1000000) 0 b!"\"1d1h1m1s1ms1mks\"" =
    some ((3600*24 + 3600 + 60 + 1)*1000000 + 1000 + 1, false) := by decide +kernel
example : readOk (timeSer gcc .long 1) 0 b!"\"1s11111111mks\"" = some (12, false) := by decide +kernel

def ts : Int := 3600*3 + 44
def tms : Int := ts * 1000 + 666
def tmks : Int := tms * 1000 + 777

example : readOk (timeSer gcc .long 1000000) 0 b!"\"3h44s666ms777mks\"" = some (tmks, false) := by decide +kernel
example : write (timeSer gcc .long 1000000) tmks = some b!"\"3h44s666ms777mks\"" := by decide +kernel

structure A where
  s : Int
  ms : Int
  mks : Int
  deriving DecidableEq

def aJson : Ser A := objectSer gcc false ⟨0, 0, 0⟩ [
  member ⟨b!"timeout_s", A.s, fun x t => { t with s := x }, timeSer gcc .long 1⟩,
  member ⟨b!"timeout_ms", A.ms, fun x t => { t with ms := x }, timeSer gcc .long 1000⟩,
  member ⟨b!"timeout_mks", A.mks, fun x t => { t with mks := x }, timeSer gcc .long 1000000⟩]

def aOrg : Bytes := b!"{\"timeout_s\":\"3h44s\",\"timeout_ms\":\"3h44s666ms\",\"timeout_mks\":\"3h44s666ms777mks\"}"

example : write aJson ⟨ts, tms, tmks⟩ = some aOrg := by decide +kernel
example : readOk aJson ⟨0, 0, 0⟩ aOrg = some (⟨ts, tms, tmks⟩, false) := by decide +kernel
example : readOk aJson ⟨0, 0, 0⟩ b!"{\"timeout_s\":10844,\"timeout_ms\":10844666,\"timeout_mks\":10844666777}" =
    some (⟨ts, tms, tmks⟩, false) := by decide +kernel

end Wjson.Tests
