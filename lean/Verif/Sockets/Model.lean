import Verif.Core.Outcome
import Verif.Core.Number
import Verif.Config.Sql

/-
`Sockets.cpp`: resolving addresses, datagram sockets.

The resolver and the kernel are not part of /repo.  What is assumed about them:
* `gethostbyname` is an arbitrary function of the host's name (fixed during a call); its answer has a family and, for `AF_INET`, addresses of four bytes, of which the code uses the first;
* `sendto` refuses an address whose family is not that of the socket (Linux, `unix_validate_addr` and `udp_sendmsg`; for UDP the family 0 is accepted as `AF_INET`,
  port 0 is refused), and otherwise hands over one message;
* `recvfrom` with a buffer of n bytes yields the first n bytes of the next message and drops the rest;
* `FD_SET` with a descriptor from 1024 on writes outside the set.
-/

namespace Verif.Sockets

open Verif.Config (cText)

/-- `AF_INET`. -/
def AF_INET : Nat := 2
/-- `AF_UNIX`. -/
def AF_UNIX : Nat := 1

/-- The answer of the resolver: family and first address. -/
structure Host where
  family : Nat
  addr : Nat
deriving DecidableEq, Repr

/-- A socket address: `sockaddr_in` and `sockaddr_un` share the family; all fields are 0 after the constructor's `memset`. -/
structure Addr where
  family : Nat := 0
  ip : Nat := 0
  port : Nat := 0
  path : Str := []
deriving DecidableEq, Repr

/-- `resolveAddress` with separate port (`Sockets.cpp:72-114`): the address on success; otherwise the structure is not touched.  `htons` is not visible: `port` is the number meant. -/
def resolveHost (resolver : Str → Option Host) (host : Str) (port : Nat) : Option Addr :=
  match resolver host with
  | none => none
  | some h => if h.family ≠ AF_INET then none else some { family := h.family, ip := h.addr, port := port }

/-- `resolveAddress` on "host:port" (`Sockets.cpp:54-70`); the argument is a C string.  `strtol` gives a `long`, stored in an `unsigned` and passed as an `unsigned short`. -/
def resolveAddress (resolver : Str → Option Host) (hostAndPort : Str) : Option Addr :=
  match hostAndPort.dropWhile (· ≠ chr ':') with
  | [] => none
  | _ :: rest =>
    let port := (atol rest % 2 ^ 32).toNat
    resolveHost resolver (hostAndPort.takeWhile (· ≠ chr ':')) (port % 2 ^ 16)

/-- Blocks of memory not given back by a call of `resolveAddress` on "host:port": the copy, if there is no colon (`Sockets.cpp:58-63` returns without `free`). -/
def resolveLeak (hostAndPort : Str) : Nat := if chr ':' ∈ hostAndPort then 0 else 1

/-- A datagram socket (`Sockets.h:63-65`): descriptor (`none` until opened: the constructor does not write it, `Sockets.cpp:118-121`), destination, source of the last message (`none` until written). -/
structure Sock where
  family : Nat
  fd : Option Nat := none
  dest : Addr := {}
  src : Option Addr := none
deriving DecidableEq, Repr

/-- `UDPSocket::destination` (`Sockets.cpp:261-264`): the result of resolving is not looked at. -/
def udpDestination (resolver : Str → Option Host) (s : Sock) (port : Nat) (host : Str) : Sock :=
  match resolveHost resolver host port with
  | some a => { s with dest := a }
  | none => s

/-- Room for a path and its NUL behind the two bytes of the family in `mDestination[256]` (`Sockets.h:64`). -/
def destRoom : Nat := 254

/-- Room in `sockaddr_un::sun_path` on Linux. -/
def pathRoom : Nat := 108

/-- `UDDSocket::destination` (`Sockets.cpp:353-357`): the path is copied, the family stays. -/
def uddDestination (s : Sock) (path : Str) : Outcome Sock := if path.length + 1 ≤ destRoom then .ok { s with dest := { s.dest with path := path } } else .ub

/-- `UDDSocket::open` (`Sockets.cpp:325-349`) when the system calls succeed and give descriptor `fd`: the path bound. -/
def uddOpen (s : Sock) (fd : Nat) (path : Str) : Outcome (Sock × Str) := if path.length + 1 ≤ pathRoom then .ok ({ s with fd := some fd }, path) else .ub

/-- `UDPSocket::open` (`Sockets.cpp:267-296`) when the system calls succeed and give descriptor `fd`. -/
def udpOpen (s : Sock) (fd : Nat) : Sock := { s with fd := some fd }

/-- A message handed over to the network. -/
structure Packet where
  to : Addr
  bytes : Str
deriving DecidableEq, Repr

/-- `sendto` (assumption): refused for a wrong family, and for port 0. -/
def sendto (s : Sock) (a : Addr) (bytes : Str) : Option Packet :=
  if s.family = AF_INET then (if (a.family = AF_INET ∨ a.family = 0) ∧ a.port ≠ 0 then some ⟨a, bytes⟩ else none)
  else if a.family = s.family then some ⟨a, bytes⟩ else none

/-- `DatagramSocket::write(message, length)` (`Sockets.cpp:152-159`): the packet, `none` for result -1. -/
def write (s : Sock) (bytes : Str) : Outcome (Option Packet) :=
  match s.fd with
  | none => .ub
  | some _ => .ok (sendto s s.dest bytes)

/-- `DatagramSocket::write(message)` (`Sockets.cpp:172-176`): the text and its NUL. -/
def writeText (s : Sock) (text : Str) : Outcome (Option Packet) := write s (cText text ++ [0])

/-- `DatagramSocket::writeBack(message, length)` (`Sockets.cpp:161-168`); undefined before any message was read. -/
def writeBack (s : Sock) (bytes : Str) : Outcome (Option Packet) :=
  match s.fd, s.src with
  | some _, some a => .ok (sendto s a bytes)
  | _, _ => .ub

/-- `DatagramSocket::writeBack(message)` (`Sockets.cpp:178-182`). -/
def writeBackText (s : Sock) (text : Str) : Outcome (Option Packet) := writeBack s (cText text ++ [0])

/-- `MAX_UDP_LENGTH` (`Sockets.h:44`). -/
def maxUdp : Nat := 1500

/-- `DatagramSocket::read(buffer)` (`Sockets.cpp:206-217`) when a message from `a` is there: length, bytes written to the buffer, socket. -/
def read (s : Sock) (a : Addr) (msg : Str) : Int × Str × Sock := ((msg.take maxUdp).length, msg.take maxUdp, { s with src := some a })

/-- The time limit of `DatagramSocket::read(buffer, timeout)` (`Sockets.cpp:225-227`): seconds and microseconds, computed in `unsigned`. -/
def timeLimit (timeout : Nat) : Nat × Nat := (timeout / 1000, timeout % 1000 * 1000 % 2 ^ 32)

/-- `DatagramSocket::read(buffer, timeout)` (`Sockets.cpp:220-237`) when a message from `a` arrives after `delay` microseconds: -1 if that is too late. -/
def readTimed (s : Sock) (timeout : Nat) (a : Addr) (msg : Str) (delay : Nat) : Outcome (Int × Str × Sock) :=
  match s.fd with
  | none => .ub
  | some fd =>
    if 1024 ≤ fd then .ub
    else if delay ≤ (timeLimit timeout).1 * 1000000 + (timeLimit timeout).2 then .ok (read s a msg) else .ok (-1, [], s)

/-- The destructor (`Sockets.cpp:137-146`): the descriptor closed. -/
def destroy (s : Sock) : Outcome Nat :=
  match s.fd with
  | none => .ub
  | some fd => .ok fd

/-- A text found in a buffer as a C string: up to the first NUL; undefined if there is none. -/
def cString (buffer : Str) : Outcome Str := if (0 : Byte) ∈ buffer then .ok (cText buffer) else .ub

end Verif.Sockets
