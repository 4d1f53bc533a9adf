import Verif.Core.CInt

/-
Model of `/repo/Timeval.cpp` and `/repo/Timeval.h`.

`tv_sec` and `tv_usec` are 64-bit; their arithmetic is modelled without overflow (the values involved
stay far below 2^63).  `gettimeofday` is a parameter `now`.  Not modelled: `seconds` (double),
stream output.  `isoTime` is in `Iso.lean`.
-/

namespace Verif.Timeval
open Verif

/-- `struct timeval` (the only member of `Timeval`), Timeval.h:46. -/
structure TV where
  sec : Int
  usec : Int
  deriving DecidableEq, Repr

/-- `struct timespec`. -/
structure TS where
  sec : Int
  nsec : Int
  deriving DecidableEq, Repr

/-- `Timeval::future`, Timeval.cpp:34-45; also the constructor `Timeval(unsigned offset)`,
Timeval.h:71.  `offset` is an `unsigned` (below 2^32). -/
def future (now : TV) (offset : Nat) : TV :=
  let sec := offset / 1000
  let msec := offset % 1000
  let usec' := now.usec + (msec * 1000 : Nat)
  let sec' := now.sec + (sec : Nat)
  if usec' > 1000000 then { sec := sec' + 1, usec := usec' - 1000000 }
  else { sec := sec', usec := usec' }

/-- `Timeval::timespec`, Timeval.cpp:48-54. -/
def timespec (t : TV) : TS := { sec := t.sec, nsec := 1000 * t.usec }

/-- `Timeval::passed`, Timeval.cpp:57-64, with the clock reading `now`. -/
def passed (t now : TV) : Bool :=
  let nowTime := future now 0
  if nowTime.sec < t.sec then false
  else if nowTime.sec > t.sec then true
  else if nowTime.usec > t.usec then true
  else false

/-- `Timeval::sec`, `Timeval::usec`, Timeval.h:80-81 (conversion to `uint32_t`). -/
def sec (t : TV) : Int := uwrap32 t.sec
def usec (t : TV) : Int := uwrap32 t.usec

/-- `Timeval::delta`, Timeval.cpp:73-79.  The differences are taken in `uint32_t` and converted to
`int32_t`; the result expression is evaluated in `int`, where overflow is undefined; `/` truncates. -/
def delta (self other : TV) : Outcome Int := do
  let deltaS := wrap32 (sec other - sec self)
  let deltaUs := wrap32 (usec other - usec self)
  let a ← int32 (1000 * deltaS)
  int32 (a + Int.tdiv deltaUs 1000)

/-- `Timeval::elapsed`, Timeval.h:87. -/
def elapsed (t now : TV) : Outcome Int := delta t (future now 0)

/-- `Timeval::remaining`, Timeval.h:90. -/
def remaining (t now : TV) : Outcome Int := do
  let e ← elapsed t now
  pure (-e)

/-- `Timeval::addMinutes`, Timeval.h:96 (`minutes*60` in `unsigned`). -/
def addMinutes (t : TV) (minutes : Nat) : TV :=
  { t with sec := t.sec + uwrap32 (minutes * 60) }

end Verif.Timeval
