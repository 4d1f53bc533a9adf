{"id": "C01", "title": "Bit-field write/read round trip with frame", "statement": "After fillField(i,v,n) on a bit vector that contains positions i..i+n-1, peekField(i,n) returns v mod 2^n, every bit outside i..i+n-1 keeps its value, the size is unchanged, and the bit at i+k is bit n-1-k of v (most significant bit first). When the field does not fit, the call stops on an assertion instead of writing out of bounds.", "quantifier": "every bit vector, every start index, every width 0..64, every 64-bit value", "why_tests_cant": "the space of vectors x indices x widths x values is unbounded; tests sample a few aligned fields and never observe the frame condition", "anchors": ["BitVector.cpp: BitVector::fillField, BitVector::peekField", "BitVector.h: BitVector::bit"]}
{"id": "C02", "title": "Reversed (LSB-first) bit fields mirror the normal ones", "statement": "fillFieldReversed(i,v,n) followed by peekFieldReversed(i,n) returns v mod 2^n and touches nothing else; reading a field reversed gives exactly the bit reversal (in n bits) of reading it normally, and writing v reversed equals writing the n-bit reversal of v normally.", "quantifier": "every bit vector, start index, width 0..64 and value", "why_tests_cant": "tests use one hand-written vector; the mirror law has to hold for all widths and offsets", "anchors": ["BitVector.cpp: BitVector::fillFieldReversed, BitVector::peekFieldReversed"]}
{"id": "C03", "title": "Cursor-based serialisation round trip", "statement": "Writing any list of (value,width) pairs with writeField from a cursor, then reading the same widths with readField from the same starting cursor, yields the same values (mod 2^width) in the same order, both cursors end at the start plus the sum of the widths, and bits outside the written range are untouched. The same holds for the reversed variants.", "quantifier": "every list of (value,width) pairs that fits in the vector, every starting cursor", "why_tests_cant": "quantifies over all field layouts of unbounded length; a test fixes one layout", "anchors": ["BitVector.cpp: BitVector::writeField, BitVector::readField, BitVector::writeFieldReversed, BitVector::readFieldReversed"]}
{"id": "C04", "title": "pack/unpack round trip and layout", "statement": "unpack(pack(v)) restores every bit of v for every size (also sizes that are not multiples of 8); pack writes ceil(size/8) bytes, MSB first, with zero padding in the low bits of the last byte; packToString returns exactly the bytes pack writes.", "quantifier": "every bit vector of every length", "why_tests_cant": "all lengths modulo 8 and all contents; tests use a single length", "anchors": ["BitVector.cpp: BitVector::pack, BitVector::unpack, BitVector::packToString"]}
{"id": "C05", "title": "hex/unhex round trip", "statement": "unhex(hexstr(v)) on a vector of the same size succeeds and restores v.", "quantifier": "every bit vector of every length", "why_tests_cant": "tests use a multiple-of-4 length; the claim fails for other lengths because hex drops the trailing size mod 4 bits", "anchors": ["BitVector.cpp: BitVector::hex, BitVector::hexstr, BitVector::unhex"]}
{"id": "C06", "title": "Parity word makes the codeword check", "statement": "For every generator and every message, appending the parity word computed by writeParityWord(.., invert=false) gives a codeword whose syndrome is 0; with the default inversion the syndrome is the all-ones word of the parity size. The message part is not changed.", "quantifier": "every generator polynomial of degree 1..63 (with or without its leading term stored), every message of every length", "why_tests_cant": "the set of messages and generators is unbounded; a test computes one CRC", "anchors": ["BitVector.h: Generator::encoderShift, Generator::syndromeShift", "BitVector.cpp: Parity::writeParityWord, Parity::syndrome, BitVector::parity, BitVector::syndrome"]}
{"id": "C07", "title": "Every error burst up to the parity length is detected", "statement": "If the generator has constant term 1, then flipping any non-empty set of bits of a word that lies within parity-length consecutive positions changes its syndrome; in particular every single-bit error in a codeword is detected.", "quantifier": "every generator with constant term 1, every word, every burst position and every error pattern of span at most the degree", "why_tests_cant": "number of error patterns is exponential; tests flip a few bits", "anchors": ["BitVector.h: Generator::syndromeShift", "BitVector.cpp: BitVector::syndrome, Parity::syndrome"]}
{"id": "C08", "title": "Syndrome is the polynomial remainder and is linear", "statement": "The syndrome of a word equals the remainder over GF(2) of the word polynomial (first bit = highest power) modulo the generator polynomial, and the parity word is the remainder of the message shifted by the parity length; hence syndrome(a xor b) = syndrome(a) xor syndrome(b) for words of equal length.", "quantifier": "every generator of degree 1..63, every word of every length", "why_tests_cant": "algebraic law over infinite domain", "anchors": ["BitVector.h: Generator", "BitVector.cpp: BitVector::syndrome, BitVector::parity"]}
{"id": "C09", "title": "Interleaving maps are undone by unmap", "statement": "map with an index table puts source element table[k] at position k; unmap with the same table puts element k at position table[k]; for every table that is a permutation, unmap after map and map after unmap are the identity; for an injective table unmap then map is the identity on the shorter side and elements not named by the table are left as they were.", "quantifier": "every table, every pair of vectors of matching sizes", "why_tests_cant": "all permutations of all sizes", "anchors": ["BitVector.cpp: BitVector::map, BitVector::unmap"]}
{"id": "C10", "title": "Puncturing and un-puncturing are inverse", "statement": "For a strictly increasing puncture list inside the vector, copyPunctured copies exactly the unpunctured elements in order, copyUnPunctured puts them back at their places and the erasure value 1/2 at every punctured position; un-puncturing and then puncturing is the identity. For any other puncture list or destination size the call stops on an assertion rather than read or write out of bounds.", "quantifier": "every vector, every puncture list, every destination size", "why_tests_cant": "combinatorial space of puncture patterns; only two fixed patterns are used in practice", "anchors": ["BitVector.cpp: SoftVector::copyPunctured, SoftVector::copyUnPunctured"]}
{"id": "C11", "title": "LSB8MSB reverses the bits of every whole octet and is an involution", "statement": "LSB8MSB reverses bit order within each complete group of 8 bits, leaves a trailing partial group untouched, and applying it twice restores the vector.", "quantifier": "every bit vector of every length", "why_tests_cant": "all lengths and contents", "anchors": ["BitVector.cpp: BitVector::LSB8MSB, BitVector::reverse8"]}
{"id": "C12", "title": "Inversion complements every bit and equality follows the bits", "statement": "invert() complements the value read at every index and invert() twice restores the vector; and two vectors of the same size that read the same bits at every index compare equal with ==.", "quantifier": "every bit vector, every history of writes and inversions", "why_tests_cant": "the representation left behind by invert is only distinguishable through ==; tests print the vector instead", "anchors": ["BitVector.cpp: BitVector::invert, BitVector::operator==", "BitVector.h: BitVector::bit"]}
{"id": "C13", "title": "sum counts the ones", "statement": "sum() is the number of indices whose bit reads 1, regardless of how the vector was produced (including after invert); sum of the inverted vector is size minus sum; sum of a concatenation is the sum of the sums.", "quantifier": "every bit vector", "why_tests_cant": "all lengths and representations", "anchors": ["BitVector.cpp: BitVector::sum"]}
{"id": "C14", "title": "Hard-decision slicing inverts soft conversion", "statement": "Converting a bit vector to soft values and slicing it gives back the same bits; slicing decides 1 exactly for values above one half.", "quantifier": "every bit vector; every soft vector", "why_tests_cant": "all lengths and contents", "anchors": ["BitVector.cpp: SoftVector::SoftVector(const BitVector&), SoftVector::sliced"]}
{"id": "C15", "title": "Segments alias, clones do not", "statement": "A write through a segment is visible at the shifted index of the vector it came from and nowhere else; a clone (clone, cloneSegment, copy of an owning vector) starts with equal contents and later writes to either are invisible in the other.", "quantifier": "every heap of vectors, every sequence of writes, every segment bounds", "why_tests_cant": "aliasing has to hold for every later write history", "anchors": ["Vector.h: VectorBase::clone, VectorBase::makeAlias, Vector::segment, Vector::operator=", "BitVector.h: BitVector::segment, BitVector::cloneSegment, BitVector(const BitVector&)"]}
{"id": "C16", "title": "Vector storage is owned once and freed once", "statement": "Whatever sequence of constructions, copies, segmentations, assignments, resizes, clears and destructions is performed, every allocated block is owned by at most one live vector, is freed at most once, and after all vectors are destroyed every block has been freed.", "quantifier": "every history of vector operations", "why_tests_cant": "double frees and leaks depend on operation histories of unbounded length", "anchors": ["Vector.h: VectorBase::vInit, VectorBase::shiftMem, VectorBase::makeAlias, VectorBase::clone, VectorBase::clear, VectorBase::resize, VectorBase::~VectorBase"]}
{"id": "C17", "title": "Assignment makes the target equal to the source", "statement": "After a = b the vector a has the size and elements b had before the assignment, and no freed memory is reachable from a.", "quantifier": "every pair of vectors (including a and b the same vector, or b a segment of a)", "why_tests_cant": "the aliasing corner cases (self-assignment, assignment from an own segment) are not exercised by tests", "anchors": ["Vector.h: VectorBase::operator=, VectorBase::clone, VectorBase::makeAlias, Vector::operator="]}
{"id": "C18", "title": "Concatenation and segment contents", "statement": "The concatenation of two vectors has the first vector's elements followed by the second's; segment(s,n), head(n) and tail(s) give exactly elements s..s+n-1; copyToSegment and segmentCopyTo move exactly the given range; out-of-range requests stop on an assertion.", "quantifier": "every pair of vectors and every start and length", "why_tests_cant": "all sizes and offsets", "anchors": ["Vector.h: VectorBase::vConcat, VectorBase::copyToSegment, VectorBase::segmentCopyTo, Vector::segment, Vector::head, Vector::tail"]}
{"id": "C19", "title": "PointerFIFO is a FIFO queue with push-front", "statement": "Over any sequence of put, push_front and get, get returns what an ideal double-ended queue would return (NULL exactly when it is empty) and size() is the ideal length.", "quantifier": "every history of operations and values", "why_tests_cant": "unbounded histories with node recycling", "anchors": ["LinkedLists.h: PointerFIFO", "LinkedLists.cpp: PointerFIFO::put, PointerFIFO::push_front, PointerFIFO::get"]}
{"id": "C20", "title": "PointerFIFO recycles nodes safely", "statement": "A node is never both in the queue and in the free list, the chain never cycles, no freed node is touched, and the number of nodes ever allocated equals the largest number of elements ever held at one time.", "quantifier": "every history of operations", "why_tests_cant": "structural invariant over unbounded histories; not observable through the API", "anchors": ["LinkedLists.cpp: PointerFIFO::allocate, PointerFIFO::release, PointerFIFO::get, PointerFIFO::put"]}
{"id": "C21", "title": "SingleLinkList order and size accounting", "statement": "Over any sequence of push_back, push_front and pop_front in which no element is pushed while it is already in the list, elements come out in ideal deque order, size() is the number of elements and totalSize() is the sum of the sizes of the elements now in the list (both as 32-bit unsigned counters).", "quantifier": "every history of operations, every element size", "why_tests_cant": "unbounded histories", "anchors": ["LinkedLists.h: SingleLinkList"]}
{"id": "C22", "title": "InterthreadQueue delivers each item once and in order", "statement": "With any number of writer and reader threads, every interleaving, every item (non-NULL pointer): the sequence of items returned by reads, followed by what is still queued, is exactly the sequence of items written, in the order in which the writes entered the lock (write_front items go first). Nothing is lost, duplicated or reordered.", "quantifier": "every number of threads, every program, every interleaving, every spurious wakeup", "why_tests_cant": "schedules are unbounded and nondeterministic; stress tests sample a few", "anchors": ["Interthread.h: InterthreadQueue::write, InterthreadQueue::write_front, InterthreadQueue::read, InterthreadQueue::readNoBlock", "Threads.h: Signal, Mutex"]}
{"id": "C23", "title": "A blocked reader is always woken when items are available", "statement": "In no reachable state is every thread stuck while a reader waits and the queue it waits on is non-empty: as long as an item is queued and some reader has not returned, some reader or an outstanding notification can proceed.", "quantifier": "every number of threads, every interleaving of write, unlock, signal, wait, wake", "why_tests_cant": "lost wakeups depend on rare schedules (the signal is sent after the unlock)", "anchors": ["Interthread.h: InterthreadQueue::read, InterthreadQueue::write", "Threads.h: Signal::wait, Signal::signal"]}
{"id": "C24", "title": "Timed read gives up only near the deadline and only when empty", "statement": "read(timeout) returns NULL only at an instant at which the queue was empty and less than 2 ms of the timeout remained; if an item is present whenever the reader holds the lock it is returned; once less than 1 ms remains the call returns at its next step.", "quantifier": "every timeout, every clock history, every interleaving and spurious wakeup", "why_tests_cant": "depends on clock values and wakeup order", "anchors": ["Interthread.h: InterthreadQueue::read(unsigned)", "Timeval.h: Timeval::remaining"]}
{"id": "C25", "title": "Waiting on either of two queues respects the timeout", "statement": "iqWaitForEither(other,timeout) returns when either queue is non-empty, and returns at the latest once the timeout has expired.", "quantifier": "every timeout, clock history and interleaving", "why_tests_cant": "a timeout without data never occurs in tests; the code then spins while holding the lock", "anchors": ["Interthread.h: InterthreadQueue::iqWaitForEither", "Threads.cpp: Signal::wait"]}
{"id": "C26", "title": "Low-water wait is released when the queue drains", "statement": "InterthreadQueueWithWait::wait(sz) returns only when the size is at most sz, and no waiter stays blocked forever while the size is at most its bound.", "quantifier": "every set of waiters and bounds, every interleaving", "why_tests_cant": "needs several waiters with different bounds and a particular wake order", "anchors": ["Interthread.h: InterthreadQueueWithWait::wait, InterthreadQueueWithWait::read"]}
{"id": "C27", "title": "InterthreadMap behaves as an atomic map and manages its elements", "statement": "Each operation acts as on an ideal map at one instant; a blocking get returns only an element stored for its key; every element handed to the map is destroyed exactly once or handed back exactly once (never both), when no pointer is written twice.", "quantifier": "every history and interleaving of write, get, read, remove, clear", "why_tests_cant": "histories unbounded; ownership errors need particular histories", "anchors": ["Interthread.h: InterthreadMap1, InterthreadMap"]}
{"id": "C28", "title": "InterthreadPriorityQueue returns the most urgent item", "statement": "Every item returned is one for which no queued item precedes it in the ordering (smallest first), and the multiset of returned plus queued items equals the multiset written.", "quantifier": "every total preorder on items, every history and interleaving", "why_tests_cant": "all orders of arrival", "anchors": ["Interthread.h: InterthreadPriorityQueue, PointerCompare"]}
{"id": "C29", "title": "Binary semaphore does not lose a post", "statement": "At most one get/try succeeds per post, a post made while nobody waits is remembered (once), and no thread stays blocked in get while the semaphore is posted and nobody else can proceed.", "quantifier": "every number of threads and every interleaving", "why_tests_cant": "schedules unbounded", "anchors": ["Interthread.h: Semaphore"]}
{"id": "C30", "title": "A successful lock operation means the lock is held", "statement": "When lock, trylock or timedlock report success the calling thread holds the mutex and no other thread does; the recursion depth is respected; lockcnt() equals the current depth.", "quantifier": "every set of threads, every interleaving, every deadline value", "why_tests_cant": "needs a particular microsecond value or a waiter at the right time", "anchors": ["Threads.cpp: Mutex::lock, Mutex::trylock, Mutex::timedlock, Mutex::unlock"]}
{"id": "C31", "title": "ScopedLockMultiple acquires all and restores", "statement": "When the constructor returns the thread holds all of the given mutexes, and after the destructor it holds exactly those it held before construction.", "quantifier": "every subset owned at entry, every success/failure pattern of the try-locks", "why_tests_cant": "the retry paths depend on contention timing", "anchors": ["Threads.cpp: ScopedLockMultiple::_lockAll, _saveState, _restoreState"]}
{"id": "C32", "title": "ScopedLockMultiple cannot deadlock", "statement": "Any set of threads that acquire groups of mutexes through ScopedLockMultiple, in any argument order and with any subset owned at entry, never reaches a state in which all of them are blocked.", "quantifier": "every number of threads and mutexes, every argument order, every subset owned at entry, every interleaving", "why_tests_cant": "deadlock needs a specific argument order plus schedule", "anchors": ["Threads.cpp: ScopedLockMultiple::_lockAll"]}
{"id": "C33", "title": "Connected queues share one lock and one wakeup discipline", "statement": "After iqConnect, a client that takes the queue lock (qGetLock) excludes all readers and writers of both queues, and a reader blocked on either queue is woken when its own queue becomes non-empty.", "quantifier": "every number of readers and writers on the two queues, every interleaving", "why_tests_cant": "needs two readers blocked on different queues and a particular wake order", "anchors": ["Interthread.h: InterthreadQueue::iqConnect, qGetLock, read, write"]}
{"id": "C34", "title": "Timeval::future yields the exact normalised instant", "statement": "future(ms) sets the time to now plus ms milliseconds exactly, with a microsecond part below one million, so that the derived timespec is valid.", "quantifier": "every current time, every offset", "why_tests_cant": "the failing case needs one exact microsecond value", "anchors": ["Timeval.cpp: Timeval::future, Timeval::timespec"]}
{"id": "C35", "title": "Timeval::delta is accurate and antisymmetric", "statement": "delta(other) differs from the exact difference by less than one millisecond, is antisymmetric, and is exact on whole-millisecond values, for differences up to the documented range (2^31 ms).", "quantifier": "every pair of instants", "why_tests_cant": "requires differences of weeks to reveal overflow", "anchors": ["Timeval.cpp: Timeval::delta", "Timeval.h: Timeval::elapsed, Timeval::remaining"]}
{"id": "C36", "title": "passed and remaining agree", "statement": "If passed() is true then remaining() is not positive; if remaining() is positive then passed() is false; passed is monotone in the clock.", "quantifier": "every pair of (deadline, clock) values", "why_tests_cant": "all microsecond values", "anchors": ["Timeval.cpp: Timeval::passed", "Timeval.h: Timeval::remaining, Timeval::elapsed"]}
{"id": "C37", "title": "Base64 round trip, tolerant of white space", "statement": "base64Decode(base64Encode(s)) = s with no error for every byte string, also when any white space is inserted anywhere in the encoded text; the encoded length is 4*ceil(n/3) and only alphabet characters and final padding appear.", "quantifier": "every byte string, every insertion of white space", "why_tests_cant": "unbounded inputs", "anchors": ["Utils.cpp: Utils::base64Encode, Utils::base64Decode"]}
{"id": "C38", "title": "Named encodings round trip", "statement": "decodeToString(encodeToString(s,e),e) = s with no error for every encoding name the functions accept (hex, base64, binary), unknown names give an error, and names are matched without regard to case.", "quantifier": "every byte string and encoding name", "why_tests_cant": "unbounded inputs; the case rule is only visible with unusual spellings", "anchors": ["Utils.cpp: Utils::decodeToString, Utils::encodeToString, hexDecode, tohex1", "Utils.h: stringCaseInsensitive"]}
{"id": "C39", "title": "Decoders report every malformed input", "statement": "hexDecode reports an error exactly when the text contains a character that is neither white space nor a hex digit or has an odd number of digits, base64Decode reports an error for every text that is not white space plus well-formed base64 (including truncated groups and misplaced padding), and otherwise the result depends only on the alphabet characters.", "quantifier": "every text", "why_tests_cant": "unbounded inputs", "anchors": ["Utils.cpp: Utils::base64Decode, hexDecode"]}
{"id": "C40", "title": "URLEncode is reversible", "statement": "Standard percent-decoding of URLEncode(s) gives back s, so different strings have different encodings.", "quantifier": "every byte string", "why_tests_cant": "tests use strings whose escapes need only decimal digits", "anchors": ["URLEncode.cpp: URLEncode"]}
{"id": "C41", "title": "gcd terminates and is the greatest common divisor", "statement": "gcd(x,y) returns the greatest common divisor of its arguments.", "quantifier": "every pair of integers", "why_tests_cant": "negative and zero arguments loop forever or trap", "anchors": ["Utils.cpp: gcd"]}
{"id": "C42", "title": "replaceAll replaces every non-overlapping occurrence, left to right", "statement": "The result is the input with each leftmost non-overlapping occurrence of the search string replaced, and the replacement text is never searched again; the call terminates.", "quantifier": "every input, search and replacement string", "why_tests_cant": "unbounded inputs; the empty search string never terminates", "anchors": ["Utils.cpp: Utils::replaceAll"]}
{"id": "C43", "title": "String splitting", "statement": "stringSplit/cstrSplit produce the maximal runs of non-separator characters in order (up to the given maximum, the last one receiving the rest of the input), and cstrGetArg(s,n) returns the n-th white-space separated word or NULL if there are fewer.", "quantifier": "every string, separator set, maximum and index", "why_tests_cant": "unbounded inputs", "anchors": ["Utils.cpp: cstrSplit, stringSplit, cstrGetArg"]}
{"id": "C44", "title": "firstlines returns the first n lines", "statement": "firstlines(s,n) is the prefix of s up to and including its n-th newline, or all of s if there are fewer than n newlines.", "quantifier": "every text and n >= 1", "why_tests_cant": "unbounded inputs", "anchors": ["Utils.cpp: firstlines"]}
{"id": "C45", "title": "format returns the whole formatted text up to its documented limit", "statement": "format(...) returns the complete formatted text when it is at most 5000 characters, and the first 5000 characters otherwise.", "quantifier": "every formatted length", "why_tests_cant": "wrong at exactly one length", "anchors": ["Utils.cpp: Utils::format, Utils::format1, osprintf"]}
{"id": "C46", "title": "Reference counting deletes exactly at the last release", "statement": "Over any history of RefCntPointer constructions, copies, assignments (from pointers and raw pointers), frees and destructions, an object is alive as long as some RefCntPointer refers to it, is deleted exactly once when the last one lets go, and its count equals the number of references.", "quantifier": "every history of operations", "why_tests_cant": "unbounded histories; count is a 16-bit integer", "anchors": ["Utils.cpp: RefCntBase::incRefCnt, RefCntBase::decRefCnt", "Utils.h: RefCntPointer"]}
{"id": "C47", "title": "Statistic tracks minimum, maximum, count and sum", "statement": "After any non-empty sequence of samples, min and max are the least and greatest sample, the count is the number of samples, the current value is the last sample and the average is the sum divided by the count.", "quantifier": "every sequence of samples", "why_tests_cant": "unbounded sequences", "anchors": ["Utils.h: Statistic"]}
{"id": "C48", "title": "BitSet behaves as a set of small numbers", "statement": "After any sequence of setBit/clearBit/isSet with numbers below 32, isSet(i) tells whether the last change to i was a setBit.", "quantifier": "every sequence of operations", "why_tests_cant": "unbounded histories", "anchors": ["Utils.h: BitSet"]}
{"id": "C49", "title": "128-bit IMSI/key text conversion round trip", "statement": "stringToUint(uintToString(h,l)) returns h and l; uintToString always has 32 lower-case hex digits.", "quantifier": "every pair of 64-bit words", "why_tests_cant": "2^128 inputs", "anchors": ["Utils.cpp: Utils::stringToUint, Utils::uintToString"]}
{"id": "C50", "title": "F16 fixed-point arithmetic is accurate", "statement": "Sum and difference are exact, product is the exact product rounded down to 2^-16, quotient is the exact quotient rounded toward zero, comparisons agree with the represented values, for all operands whose result is representable; results outside the range saturate as documented.", "quantifier": "every pair of 32-bit fixed-point values", "why_tests_cant": "2^64 operand pairs", "anchors": ["F16.h: F16"]}
{"id": "C51", "title": "F16 assignment yields the assigned value", "statement": "The value of the expression (a = b) is b, so chained assignments a = b = c give a, b and c the same value.", "quantifier": "every value", "why_tests_cant": "tests never use the result of an assignment", "anchors": ["F16.h: F16::operator="]}
{"id": "C52", "title": "Pretty-printed tables are aligned", "statement": "In printPrettyTable every column starts at the same offset in every row that has it, and no cell text is cut, for tables up to 30 columns with cells up to 100 characters. With tabs, cells are separated by one tab each and rows by line feeds.", "quantifier": "every table", "why_tests_cant": "unbounded tables", "anchors": ["Utils.cpp: printPrettyTable"]}
{"id": "C53", "title": "Configuration reads return the last value set", "statement": "Over any history of set, remove, purge, reads and passing time (no other writer, no database failure), getStr returns the value most recently set and not removed, else the schema default, else reports the key as not found; the cache never changes an answer.", "quantifier": "every history of operations and clock readings", "why_tests_cant": "cache coherence over unbounded histories", "anchors": ["Configuration.cpp: ConfigurationTable::lookup, set, remove, purge, checkCacheAge, getStr, defines"]}
{"id": "C54", "title": "External configuration changes become visible within the cache lifetime", "statement": "If another process changes the database, every read more than the cache lifetime after the change returns the new value.", "quantifier": "every history of reads, external changes and clock readings", "why_tests_cant": "depends on clock values and histories", "anchors": ["Configuration.cpp: ConfigurationTable::checkCacheAge, ConfigurationTable::lookup"]}
{"id": "C55", "title": "Numeric configuration values round trip", "statement": "set(key,n) followed by getNum(key) returns n; numbers written in decimal, 0x hexadecimal or 0-prefixed octal are read as such.", "quantifier": "every 64-bit integer", "why_tests_cant": "2^64 values", "anchors": ["Configuration.cpp: ConfigurationTable::set(long), ConfigurationTable::getNum, ConfigurationRecord"]}
{"id": "C56", "title": "Vector-valued configuration parses every element", "statement": "getVectorOfStrings returns the space-separated words in order, getVector returns their numeric values in order, for every value.", "quantifier": "every value string", "why_tests_cant": "unbounded inputs", "anchors": ["Configuration.cpp: ConfigurationTable::getVectorOfStrings, ConfigurationTable::getVector"]}
{"id": "C57", "title": "Scalar validation accepts exactly the legal values", "statement": "isValidValue accepts, for boolean keys, exactly 0 and 1, for port keys exactly the decimal numbers 1..65535, for IP address keys exactly dotted quads, for file path keys exactly non-empty strings over the allowed alphabet (or empty when optional).", "quantifier": "every value string", "why_tests_cant": "unbounded inputs; numeric prefix parsing accepts trailing garbage", "anchors": ["Configuration.cpp: ConfigurationTable::isValidValue, ConfigurationTable::isValidIP"]}
{"id": "C58", "title": "Choice validation accepts exactly the listed choices", "statement": "For a choice key with list v1|d1,v2|d2,... or v1,v2,... the accepted values are exactly v1,v2,....", "quantifier": "every list and value", "why_tests_cant": "the undescribed form takes a different path whose 32/64-bit comparison is wrong", "anchors": ["Configuration.cpp: ConfigurationTable::isValidValue (CHOICE)"]}
{"id": "C59", "title": "Composite address validation requires both parts", "statement": "CIDR, host:port and ip:port keys accept a value only if both parts are present and each is legal.", "quantifier": "every value string", "why_tests_cant": "missing-delimiter inputs take the wrong branch on 64-bit", "anchors": ["Configuration.cpp: ConfigurationTable::isValidValue (CIDR_OPT, CIDR, HOSTANDPORT, IPANDPORT)"]}
{"id": "C60", "title": "Range validation accepts exactly the values inside the range", "statement": "For an integer range key min:max (optionally with step) the accepted integers are exactly those between min and max inclusive.", "quantifier": "every range and value", "why_tests_cant": "unbounded inputs", "anchors": ["Configuration.cpp: ConfigurationTable::isInValRange, ConfigurationTable::getMinMaxStepping"]}
{"id": "C61", "title": "Stored configuration text reaches the database unchanged", "statement": "The SQL command built by set denotes exactly the given key and value, for every key and value.", "quantifier": "every key and value string", "why_tests_cant": "quotes in values change the meaning of the command", "anchors": ["Configuration.cpp: ConfigurationTable::set", "sqlite3util.cpp: condition_c, sqlite_command"]}
{"id": "C62", "title": "SimpleKeyValue parses every name=value pair", "statement": "addItems on a space separated list of name=value pairs stores each pair, later pairs override earlier ones, and get returns the stored value.", "quantifier": "every list of pairs", "why_tests_cant": "unbounded inputs", "anchors": ["Configuration.cpp: SimpleKeyValue::addItem, addItems, get, getNum"]}
{"id": "C63", "title": "Hashed string comparison never confuses different names", "statement": "Two names are treated as equal by HashString comparison and by caches keyed on the hash exactly when they are the same string.", "quantifier": "every pair of strings", "why_tests_cant": "collisions exist but are astronomically rare in random tests", "anchors": ["Configuration.cpp: HashString::computeHash", "Configuration.h: HashString", "Logger.cpp: gGetLoggingLevel"]}
{"id": "C64", "title": "Alarm list keeps exactly the newest alarms", "statement": "After any sequence of alarms the list holds the most recent Log.Alarms.Max of them, oldest first.", "quantifier": "every sequence of alarms and every sequence of limits", "why_tests_cant": "unbounded histories", "anchors": ["Logger.cpp: addAlarm, gGetLoggerAlarms"]}
{"id": "C65", "title": "Logging-level changes take effect after a bounded number of log calls", "statement": "The level used for a file was obtained from the configuration at most 1001 log checks ago.", "quantifier": "every history of checks, files and configuration changes", "why_tests_cant": "unbounded histories", "anchors": ["Logger.cpp: gGetLoggingLevel"]}
{"id": "C66", "title": "Log level selection precedence", "statement": "getLoggingLevel uses the file-specific level when it is a known level name, otherwise the default level; lower numeric level means more severe and a message is logged exactly when its level is at most the file's level.", "quantifier": "every configuration content and file name", "why_tests_cant": "all configurations", "anchors": ["Logger.cpp: levelStringToInt, lookupLevel2, getLoggingLevel"]}
{"id": "C67", "title": "Statistics counters lose no increments", "statement": "For created counters and a working database, database value plus pending batch equals the number of increments since creation or last clear, over any interleaving of incr and commit.", "quantifier": "every history and interleaving of incr, max, clear, commit", "why_tests_cant": "unbounded histories and schedules", "anchors": ["Reporting.cpp: ReportingTable::incr, commit, clear, create, max"]}
{"id": "C68", "title": "Statistics commands never overrun their buffers", "statement": "Every text the reporting table builds fits the buffer it is built in.", "quantifier": "every name, index and value", "why_tests_cant": "needs long names or indices of nine or more digits", "anchors": ["Reporting.cpp: ReportingTable::create, incr, max, clear, commit"]}
{"id": "C69", "title": "Database access retries are bounded and return the first decisive answer", "statement": "A statement is attempted at most the given number of times; the first answer other than busy/locked is returned unchanged; busy is returned only if every attempt was busy.", "quantifier": "every sequence of engine answers and every retry bound", "why_tests_cant": "contention patterns unbounded", "anchors": ["sqlite3util.cpp: sqlite3_prepare_statement, sqlite3_run_query"]}
{"id": "C70", "title": "At most one instance registers", "statement": "Two processes registering the same program do not both succeed.", "quantifier": "every interleaving of two registrations", "why_tests_cant": "race between existence check and creation", "anchors": ["SelfDetect.cpp: SelfDetect::RegisterProgram"]}
{"id": "C71", "title": "Exit removes every registered file and nothing else", "statement": "After Exit, the pid file created by this process and all registered files are gone, and a process whose registration failed removes no pid file.", "quantifier": "every sequence of registrations", "why_tests_cant": "unbounded sequences", "anchors": ["SelfDetect.cpp: SelfDetect::RegisterFile, SelfDetect::Exit, SelfDetect::RegisterProgram"]}
{"id": "C72", "title": "Signal handlers run once each in registration order", "statement": "When a signal in range is delivered every handler registered for it is called once, in registration order; registrations for numbers out of range are ignored; the default action follows.", "quantifier": "every sequence of registrations and deliveries", "why_tests_cant": "unbounded sequences", "anchors": ["UnixSignal.cpp: UnixSignal::Register, UnixSignal::Handler"]}
{"id": "C73", "title": "Host:port text resolves to that host and port", "statement": "resolveAddress on host:port text uses exactly the host before the colon and the port number after it; text without a colon is rejected.", "quantifier": "every address text", "why_tests_cant": "port numbers above 65535 wrap silently", "anchors": ["Sockets.cpp: resolveAddress"]}
{"id": "C74", "title": "Socket timeout conversion is exact", "statement": "A read timeout of t milliseconds is passed to the system as a normalised second/microsecond pair equal to t milliseconds.", "quantifier": "every timeout", "why_tests_cant": "all 32-bit values", "anchors": ["Sockets.cpp: DatagramSocket::read(char*, unsigned)"]}
{"id": "C75", "title": "Soft energy and SNR stay in range", "statement": "For a non-empty vector of values in 0..1, getEnergy returns the mean of 2|x-1/2| in 0..1 and the smallest such value; getSNR never divides by zero and never exceeds 999.", "quantifier": "every soft vector", "why_tests_cant": "all vectors; the boundary between the clamp factor 1000 and the clamp value 999", "anchors": ["BitVector.cpp: SoftVector::getEnergy, SoftVector::getSNR"]}
{"id": "C76", "title": "Comparison operators of hashed names agree with each other", "statement": "HashString's < is a strict total order up to equality of hashes, and a > b means b < a.", "quantifier": "every pair of names", "why_tests_cant": "all pairs; a wrong operator that is rarely called goes unnoticed", "anchors": ["Configuration.h: HashString::operator==, operator<, operator>"]}
{"id": "C77", "title": "SimpleKeyValue keeps no memory it does not need", "statement": "addItem and addItems release every temporary copy they make.", "quantifier": "every text, including malformed words", "why_tests_cant": "leaks have no visible effect in a test", "anchors": ["Configuration.cpp: SimpleKeyValue::addItem, addItems"]}
{"id": "C78", "title": "Group log levels follow the configuration", "statement": "After LogGroup::setAll the debug and watch level of each group is the configured one, 0 if none is configured.", "quantifier": "every configuration", "why_tests_cant": "a dangling pointer often still works in a test", "anchors": ["Logger.cpp: getNonEmptyStrIfDefined, LogGroup::setAll"]}
{"id": "C79", "title": "remove reports whether anything was removed", "statement": "ConfigurationTable::remove deletes the key and only the key, and returns true exactly when there was something to delete.", "quantifier": "every database and key", "why_tests_cant": "all databases; tests remove only keys they have set", "anchors": ["Configuration.cpp: ConfigurationTable::remove", "Configuration.h: remove"]}
{"id": "C80", "title": "Creating an indexed parameter set creates exactly that range", "statement": "ReportingTable::create(base,min,max) creates exactly the parameters base.min to base.max and returns.", "quantifier": "every base name and pair of indices", "why_tests_cant": "all ranges, in particular the largest index", "anchors": ["Reporting.cpp: ReportingTable::create(baseName,minIndex,maxIndex)"]}
{"id": "C81", "title": "Every prepared statement is finalised exactly once", "statement": "The lookup, existence, command and query functions finalise every statement they prepared exactly once before they return, and never use one after that.", "quantifier": "every sequence of engine answers, including errors and contention at every call", "why_tests_cant": "needs an engine that fails or stays busy at a chosen moment; leaks are not visible in results", "anchors": ["sqlite3util.cpp: sqlite3_exists, sqlite3_single_lookup, sqlite_command, sqlQuery"]}
{"id": "C82", "title": "Existence checks and lookups find exactly the row with that key", "statement": "sqlite3_exists is true exactly when a row with that key is in the table, and sqlite3_single_lookup returns the value of that row, for text and number keys.", "quantifier": "every table content and every key", "why_tests_cant": "all keys, in particular those with quotes, long ones and those equal to column names; contention", "anchors": ["sqlite3util.cpp: sqlite3_exists, sqlite3_single_lookup, sqlite_single_lookup"]}
{"id": "C83", "title": "Attributes read back as set", "statement": "After sqlite_set_attr(name,value), sqlite_get_attr(name) returns that value, and other attributes are unchanged.", "quantifier": "every database, name and value", "why_tests_cant": "all texts, in particular long ones and those with quotes", "anchors": ["sqlite3util.cpp: sqlite_set_attr, sqlite_get_attr"]}
{"id": "C84", "title": "Going through a query visits each row once, in order", "statement": "Calling sqlQuery::sqlStep until it says there is no more gives every row of the result once, in order; an error is not taken for the end.", "quantifier": "every result and every sequence of engine answers", "why_tests_cant": "errors half way through a result cannot be provoked in a test", "anchors": ["sqlite3util.cpp: sqlQuery::sqlStep", "sqlite3util.h: sqlQuery"]}
{"id": "C85", "title": "Query texts fit the buffers they are built in", "statement": "Every SQL text built by the lookup functions fits the buffer it is built in.", "quantifier": "every table, column and key", "why_tests_cant": "needs long keys", "anchors": ["sqlite3util.cpp: sqlite3_exists, sqlite3_single_lookup"]}
{"id": "C86", "title": "Each program has its own pid file", "statement": "The pid file of a program is /var/run/<name>.pid whatever directory it is started from, and programs with different names have different pid files.", "quantifier": "every argv[0]", "why_tests_cant": "all names, in particular those longer than the buffer", "anchors": ["SelfDetect.cpp: SelfDetect::RegisterProgram"]}
{"id": "C87", "title": "The crash handler uses only settings that have been given values", "statement": "No order of registrations, settings and signals makes the signal handler read a setting before it has a value, or a table out of range.", "quantifier": "every history of registrations, settings and deliveries", "why_tests_cant": "an uninitialised flag usually happens to be zero in a test", "anchors": ["UnixSignal.cpp: UnixSignal::UnixSignal, UnixSignal::Handler", "UnixSignal.h: TarName"]}
{"id": "C88", "title": "Packets go to the destination named and replies to the sender", "statement": "A datagram socket sends to the destination it was last given, and reports when a destination cannot be resolved; a reply goes to the sender of the packet read last.", "quantifier": "every sequence of destinations, reads and writes", "why_tests_cant": "unresolvable names are skipped silently", "anchors": ["Sockets.cpp: UDPSocket::destination, DatagramSocket::write, DatagramSocket::writeBack, DatagramSocket::read, UDDSocket::destination"]}
{"id": "C89", "title": "A text that is sent arrives whole", "statement": "The packet sent for a text contains exactly the text, and a text read back is the text sent.", "quantifier": "every text", "why_tests_cant": "all lengths, in particular beyond the largest packet", "anchors": ["Sockets.cpp: DatagramSocket::write(const char*)"]}
{"id": "C90", "title": "Timed reads work on any open socket", "statement": "A read with a timeout returns a packet if one is there, and reports a timeout otherwise, whatever the number of the descriptor.", "quantifier": "every descriptor and every timeout", "why_tests_cant": "needs a process with more than a thousand open descriptors", "anchors": ["Sockets.cpp: DatagramSocket::read(char*, unsigned)"]}
{"id": "C91", "title": "Sockets close exactly what they opened", "statement": "The destructor closes every descriptor the socket opened and no other, and opening stays within the address structure.", "quantifier": "every sequence of open and close", "why_tests_cant": "needs another thread opening a descriptor at the right moment", "anchors": ["Sockets.cpp: DatagramSocket::close, DatagramSocket::~DatagramSocket, UDPSocket::open, UDDSocket::open"]}
{"id": "C92", "title": "Fixed point numbers and floats convert with known accuracy", "statement": "Reading an F16 as a float and making an F16 from a float or double gives the nearest representable number; reading and converting back changes nothing.", "quantifier": "every F16 and every float whose value an F16 can hold", "why_tests_cant": "there are 2^32 F16 values and the failing ones lie where the float has fewer bits than the F16", "anchors": ["F16.h: F16::F16(float), F16::operator=(float), F16::f, F16::F16(double)"]}
{"id": "C93", "title": "Fixed point arithmetic and comparison with floats", "statement": "Products and quotients of an F16 and a float are right to one step; multiplying by one changes nothing; comparisons with a float report the true order.", "quantifier": "every F16 and every float with a result in range", "why_tests_cant": "rounding differs only for large values", "anchors": ["F16.h: F16::operator*(float), F16::operator/(float), F16::operator>(float), F16::operator<(float), F16::operator==(float)"]}
{"id": "C94", "title": "Bit vectors and text", "statement": "The vector made from a text of zeros and ones has exactly these bits; printing gives the text back; other texts are not accepted. Soft vectors show the bit that slicing gives, or a dash when unsure.", "quantifier": "every text and every vector", "why_tests_cant": "all lengths and characters", "anchors": ["BitVector.cpp: BitVector::BitVector(const char*), operator<<", "BitVector.h: BitVector"]}
{"id": "C95", "title": "Lists of addresses are checked entry by entry", "statement": "A value of type list of addresses is accepted exactly when every entry is a legal address with an optional legal port.", "quantifier": "every value", "why_tests_cant": "the position of the port in the list matters", "anchors": ["Configuration.cpp: ConfigurationTable::isValidValue (MIPADDRESS, MIPADDRESS_OPT)"]}
{"id": "C96", "title": "The generated script creates the default table", "statement": "Running the text of getDefaultSQL adds a row with name, default, static flag and description for every key that is missing, changes no other row, and may be run again.", "quantifier": "every schema and every database", "why_tests_cant": "quotes in names, defaults and descriptions", "anchors": ["Configuration.cpp: ConfigurationTable::getDefaultSQL, ConfigurationTable::getSQL"]}
{"id": "C97", "title": "The generated manual lists every parameter once", "statement": "getTeX lists every key of the schema in exactly one section, and shows names and descriptions as they are written in the schema.", "quantifier": "every schema", "why_tests_cant": "special characters of TeX in descriptions, and keys without visibility", "anchors": ["Configuration.cpp: ConfigurationTable::getTeX"]}
{"id": "C98", "title": "Searching the configuration finds the keys that contain the text", "statement": "find prints exactly the rows of the table whose key contains the given text, with their values; getSimilarKeys returns exactly the keys of the schema that contain it.", "quantifier": "every table, schema and text", "why_tests_cant": "texts with wildcards, quotes and capitals", "anchors": ["Configuration.cpp: ConfigurationTable::find, ConfigurationTable::getSimilarKeys"]}
{"id": "C99", "title": "The list of all parameters shows the table", "statement": "getAllPairs returns each row of the table with its value, and after any history of sets and removals the value most recently set.", "quantifier": "every table and every history of operations", "why_tests_cant": "histories are unbounded, and the cache could shine through", "anchors": ["Configuration.cpp: ConfigurationTable::getAllPairs"]}
{"id": "C100", "title": "Time stamps as text name the instant and sort like it", "statement": "isoTime gives the ISO 8601 text of the instant: an existing date and time of day that names this instant and no other; UTC texts sort as the instants do.", "quantifier": "every time_t and both kinds of time", "why_tests_cant": "all dates: leap years, centuries, negative times, far years", "anchors": ["Timeval.cpp: Timeval::isoTime"]}
{"id": "C101", "title": "Reader/writer lock excludes", "statement": "While a thread is in a writing section no other thread is in a reading or writing section; readers share; the trial methods say whether the section was entered.", "quantifier": "every number of threads and every interleaving", "why_tests_cant": "interleavings; errors of the pthread layer are ignored", "anchors": ["Threads.h: RWLock::wlock, RWLock::rlock, RWLock::trywlock, RWLock::tryrlock, RWLock::unlock"]}
{"id": "C102", "title": "A started thread runs its task once with its argument and can be joined", "statement": "Every successful start runs the task given exactly once with the argument given; join returns after the task has returned; the block that carries the argument is freed exactly once; no started thread is lost.", "quantifier": "every number of objects, callers and threads, every interleaving", "why_tests_cant": "interleavings of start, the new thread and join", "anchors": ["Threads.cpp: Thread::start, thread_main", "Threads.h: Thread::join"]}
{"id": "C103", "title": "Initialised numbers behave like numbers", "statement": "A variable of the scalar types starts with its initial value and then behaves like the integer it stands for: assignment, increments, decrements, sums and differences, and the values these return; a field holds values of its width.", "quantifier": "every scalar type and every sequence of operations", "why_tests_cant": "sequences are unbounded, and the types wrap differently at their limits", "anchors": ["ScalarTypes.h: _INITIALIZED_SCALAR_FUNCS, Field_i, Field_z, Field"]}
{"id": "C104", "title": "Memory statistics", "statement": "In every sequential history of fewer than 2^31 operations in which objects of the checked classes are created, labelled at most once with a nonempty label, and destroyed \u2014 without copying or assigning them \u2014 the memory statistics report for every class exactly the number of objects alive and the number ever created, for every label the number of objects alive that carry it, and no assertion of the detector fails. Copying an object makes the current number go negative (and ends the program under gMemLeakDebug); a second label leaves the first counted for ever; unlabelled objects are counted down under the empty label; the 2^31st creation overflows a counter.", "quantifier": "all sequences of creations, labels and destructions of any number of objects of any classes", "why_tests_cant": "The property is about every history, of which there are unboundedly many; the overflow needs 2^31 objects; drift by copies shows only long afterwards.", "anchors": ["MemoryLeak.h:62-113", "Utils.cpp:70-110"]}
{"id": "C105", "title": "Scanning into strings", "statement": "myscanf with two to four strings, a format made of white space, ordinary characters, %s and %[...] (with or without width) and at most as many storing directives as strings, never writes outside its buffers, whatever the input. It stores into the first strings exactly the pieces read by the longest part of the format that can be read, leaves the other strings unchanged, and returns the number of pieces (-1 if there is none because the input ended). What a directive reads is determined by the text. With one string the same holds if something is stored; otherwise the string is read from memory never written. %c leaves its buffer unterminated. The number returned does not tell whether the text after the last piece matched.", "quantifier": "all inputs, all formats of the stated directives, all previous values of the strings", "why_tests_cant": "Buffer sizes are relative to inputs of any length; the failures read uninitialised memory and often look right in a test.", "anchors": ["Utils.cpp:197-246"]}
{"id": "C106", "title": "Time stamps of messages", "statement": "timestr gives the last characters, as many as asked for, of a blank and the local time of day hh:mm:ss.t (rounded down to tenths), preceded by the date YYYY-MM-DDT if asked; timestr() gives the whole text without date. With date (years 0 to 9999) the date exists and belongs to the instant, and while the zone's offset stays the same, stamps sort as instants do, up to a tenth of a second. Without date they do not sort across midnight, and the stamps of width 7 used on the console repeat every hour.", "quantifier": "all clock readings, all offsets of zones, all widths", "why_tests_cant": "Calendars and clock readings have too many cases (leap years, centuries, negative times) and the clock cannot be set in a unit test.", "anchors": ["Utils.cpp:281-305"]}
{"id": "C107", "title": "Times in seconds and sleeping", "statement": "Until the year 2242, timef and Timeval::seconds differ from the clock's reading by less than two microseconds, and they never go back unless the clock does, even across the carry from microseconds to seconds. sleepf returns at once for ten microseconds or less and otherwise asks for the time given up to two microseconds, for at most 4294 seconds; beyond 2^32 microseconds the conversion is undefined. msleep asks for exactly the time given from 0 to 4294967 milliseconds; 4294968 milliseconds become 704 microseconds and -1 becomes 71 minutes.", "quantifier": "all clock readings, all roundings with the properties of double arithmetic, all times to sleep", "why_tests_cant": "Rounding errors and monotonicity concern every pair of clock readings; the sleeps that fail take more than an hour.", "anchors": ["Utils.cpp:274-279", "Utils.cpp:309-313", "Timeval.cpp:66-69", "Timeval.h:38"]}
{"id": "C108", "title": "Log records reach their destinations", "statement": "Every log record reaches the system log exactly once with its priority and text (never interpreted as a format), and the alarm list exactly if it is EMERG, ALERT or CRIT and the logger module is initialised. Its text is the level's name, a blank and the message. When records are written by any number of threads at the same time, the log file consists of whole lines, one for each record (texts without inner line ends and zeros), none split, mixed, lost or doubled, those of each thread in its order. A text with a zero character is cut there and may lose its line end, so that the next record continues the line; alarms on the standard error stream, written without the lock, can be mixed.", "quantifier": "all numbers of threads, records, texts and interleavings", "why_tests_cant": "Interleavings cannot be forced by a unit test, and mixed lines occur rarely.", "anchors": ["Logger.cpp:208-239", "Logger.cpp:257-262"]}
{"id": "C109", "title": "The keys every configuration has, and the state after the constructor", "statement": "After the ConfigurationTable constructor has opened its database, the schema holds the application's keys and the four keys of CommonLibs, whose definitions the application cannot replace; the defaults of the four keys pass their own validation. Every value accepted for Log.Level is one the logger understands as exactly that level. A decimal value without leading zero for Control.NumSQLTries or Log.Alarms.Max is accepted exactly if it is in the range, and is read as that number. The program name is stored without overrunning its 20-byte buffer, whatever its length. crossCheck calls the hook set last. If the database cannot be opened the schema stays empty and the hook pointer unset; validating an unknown key leaves an entry with unset flags.", "quantifier": "for all application schemas, keys, values and program names", "why_tests_cant": "Tests try a few values of each key; that no accepted level is unknown to the logger and no name overruns the buffer are statements about all strings.", "anchors": ["Configuration.cpp:96-184", "Configuration.cpp:701-708", "Configuration.cpp:954-968"]}
{"id": "C110", "title": "What printKey and printDescription tell about a key", "statement": "Every type and visibility level has its own one-line name. If the fields contain no line ends, two keys with the same printed description agree in description, units, type, default, visibility and static flag, and the scope lines tell which scopes apply. For choices with descriptions, and for ranges with or without a step, there is exactly one line per entry, in order, with its two parts. printKey's line tells name, value and whether it is the default. Choices without descriptions are printed wrongly on a 64-bit system (the whole list, twice); one scope is printed twice; values that look like the marks (disabled) or [default] are ambiguous.", "quantifier": "for all keys, values and lists of valid values shorter than 2^31", "why_tests_cant": "Tests compare the output for a few keys; that no two different keys read the same, and that the loop handles every list, are statements about all texts.", "anchors": ["Configuration.cpp:1099-1196", "Configuration.cpp:1198-1209", "Configuration.cpp:1211-1290"]}
{"id": "C111", "title": "Starting the logger", "statement": "However often gLogInit and gLogInitWithFile are called, and whatever happens to the configuration in between, at most one log file is opened (truncated) and it stays the log file. The file named in the configuration is used exactly by programs whose name begins with Open, RMSC or RangeFinderGW. Starting with the name of a level makes it the level of all files without their own level, of Mutex.cpp, and stores it in the database. groupNameToIndex finds each group name in any case of letters and answers 6 for everything else; the assertions on the group names hold. Text that is no level name destroys the level set before; the cached level of Mutex.cpp does not follow later changes; log file names up to three characters are ignored.", "quantifier": "for all sequences of calls, configurations, program names, file names and group names", "why_tests_cant": "Tests start the logger once in one configuration; that a second start never truncates the file again is a statement about all sequences of calls.", "anchors": ["Logger.cpp:264-321", "Logger.cpp:333-364"]}
{"id": "C112", "title": "The committer of the reports", "statement": "In every interleaving of the calls with the committer thread, the increments made so far are, in order, those in the database, those a commit is writing and those in the batch. While the thread is alive no increment waits longer than ten seconds. A reportShutdown call after the thread has begun ends it within ten seconds, and when the call finds the thread asleep everything reported before is stored. An increment just before the shutdown is lost for ever when the thread is writing; a shutdown before the first step of the thread is forgotten and the thread never ends; a table other than gReports is never committed. The constructor starts the thread exactly when the database opens.", "quantifier": "for all interleavings of any number of increments, shutdowns, passing time and steps of the thread", "why_tests_cant": "The lost increment and the forgotten shutdown need the calls to fall into short windows of the other thread; the delay bound is about all executions.", "anchors": ["Reporting.cpp:41-62", "Reporting.cpp:208-218", "Reporting.h:42-97"]}
{"id": "C113", "title": "Logging, configuration and reports do not deadlock", "statement": "Any number of threads may log messages of any priority, read and change the configuration, list alarms, set group levels and report or commit counters, in any order: no thread waits for ever. Every execution of their lock operations is bounded, and one that cannot go on has all threads finished with no lock held. Not so when an update hook logs a critical message (two threads can wait for each other), or when a signal handler that logs interrupts a thread that writes the log file.", "quantifier": "for all numbers of threads, sequences of calls, branches taken inside the calls, and interleavings", "why_tests_cant": "A deadlock needs a particular interleaving of particular calls, often with a failing database; the absence of deadlocks is about all interleavings.", "anchors": ["Logger.cpp:98-239", "Logger.cpp:386-410", "Configuration.cpp:344-354", "Configuration.cpp:713-944", "Reporting.cpp:65-206", "sqlite3util.cpp:49-87"]}
{"id": "C114", "title": "Decimal values are checked against decimal ranges", "statement": "For a range with a decimal point, a decimal number (with or without sign and point, any number of digits) is accepted exactly when its nearest float lies between the nearest floats of the limits: so every number inside is accepted, and every number outside by more than the rounding is refused. A value with any character other than digits, points and minus signs is refused. Refuted: numbers just outside (0.50000001 for 0.0:0.5) and texts that are no numbers (1.5.7, 1-1, .) are accepted.", "quantifier": "for all limits, steps and values of any length, both widths of size_t", "why_tests_cant": "Rounding of decimals to float is about all decimals; tests try a few far from the limits.", "anchors": ["Configuration.cpp:615-638", "Configuration.cpp:1029-1065", "Configuration.cpp:1067-1097"]}
{"id": "C115", "title": "A record warns once and always gives the same number", "statement": "Reading the same configuration record as integer or floating-point number, however often and in whatever mixture, returns the same number each time and logs at most one warning; it logs one exactly if one of the readings finds that the value is empty or not a number from beginning to end. A decimal number with optional white space, sign, point and exponent, of any length, is read as the nearest float without warning; an integer in decimal, octal or hexadecimal C notation gives none either; every other value does (for floats: values beginning with 0x, inf or nan aside).", "quantifier": "for all values of any length, and all sequences of readings", "why_tests_cant": "The flag that suppresses warnings also steers the early return for empty values; tests read a record once. Which texts count as whole numbers is a claim about all texts.", "anchors": ["Configuration.cpp:59-93", "Configuration.h:76-106"]}
{"id": "C116", "title": "Threads share the configuration table as if they took turns", "statement": "When any number of threads use one ConfigurationTable at the same time (getStr, getNum, getBool, getFloat, getVector, getVectorOfStrings, defines, set, remove, purge, and isValidValue), while other processes write to the database and the clock advances, every call has its effect at a single moment between its call and its return: reads return what the same calls made one after the other would return, in particular never a value that is half changed, taken from a cache entry being erased, or older than a set that had already returned. Two threads never use cache, schema or time of the last purge at the same time with one of them writing, no call waits for ever, and each is over after a bounded number of its own steps.", "quantifier": "for all numbers of threads, all interleavings of their steps, all calls, databases, schemas, clock readings and changes by other processes", "why_tests_cant": "Which interleavings occur is up to the scheduler; a unit test sees a few of them, and a missing lock shows only in a window of nanoseconds. The claim is about all interleavings.", "anchors": ["Configuration.cpp:344-365", "Configuration.cpp:658-697", "Configuration.cpp:713-838", "Configuration.cpp:892-945", "Configuration.h:195-204"]}
{"id": "C117", "title": "Threads looking up host names at once each get their own answer", "statement": "When any number of threads call resolveAddress(address, host, port) at the same time, every call that returns true has filled in the IPv4 address of the host that very call named, with the port it was given, and a call returns false exactly if that host has no IPv4 address; no call ever returns the address of a host another thread asked for.", "quantifier": "for all numbers of threads, interleavings, host names, ports and answers of the resolver", "why_tests_cant": "The mistake shows only when a second lookup falls between the unlock and the copy of another one; a test with real threads and a real resolver practically never hits this window.", "anchors": ["Sockets.cpp:72-114"]}
{"id": "C118", "title": "Messages on the console come out whole", "statement": "When any number of threads write to the console with COUT and CERR, or with the log sent to the console, the console shows whole messages one after the other: each with its time, thread and end of line together, none lost, none twice, and those of one thread in the order in which it wrote them. Only the last may be incomplete, as long as it is being written.", "quantifier": "for all numbers of threads, interleavings and messages with any number of parts", "why_tests_cant": "Mixed lines depend on the scheduler; a test sees a few interleavings, usually with messages short enough to be written at once.", "anchors": ["Threads.h:45-64", "Threads.cpp:53-81", "Logger.cpp:218-238"]}
{"id": "C119", "title": "Regular expressions in the configuration and in Regexp", "statement": "isValidValue accepts for a key of type REGEX exactly the texts that are extended regular expressions (for REGEX_OPT also the empty text), and for a key of type STRING exactly the texts its expression matches (for STRING_OPT also the empty text). A value accepted for a REGEX key can be given to Regexp without ending the program. Every expression compiled, by isValidValue or a Regexp object, is freed exactly once, and match never uses a freed one, whatever objects are made, copied and destroyed.", "quantifier": "for all values, expressions, regular expression libraries and programs with any number of objects", "why_tests_cant": "Freeing twice or not at all gives no wrong result in a test; which texts are accepted depends on the library, and the claim is for any.", "anchors": ["Configuration.cpp:573-614", "Regexp.h:36-63"]}
{"id": "C120", "title": "Exit codes reach the parent process", "statement": "A program ended with Exit::exit(status) shows this status to its parent; only SUCCESS looks like success, different codes look different, and an unsupported status is reported on the output.", "quantifier": "for all values of status", "why_tests_cant": "The status a parent sees is cut to eight bits by the system; a test in the same process cannot see it, and only a few of 2^32 values would be tried.", "anchors": ["Exit.h:29-58"]}
{"id": "C121", "title": "A hashed name always has the hash of its text", "statement": "Whatever is done with HashString objects (construction, copies, assignment from strings and other objects, changing the text), hash() is the hash of the text the object has, so that objects with the same text compare equal.", "quantifier": "for all programs with any number of objects and all texts", "why_tests_cant": "The hash is stored beside the text; a test checks the operations it calls, not that no operation changes one without the other.", "anchors": ["Configuration.h:119-179", "Configuration.cpp:970-979"]}
{"id": "C122", "title": "A signal at any moment finds the registered handlers", "statement": "Whenever the signal comes, on whatever thread, also in the middle of Register on the same or another thread: before the process ends, all handlers whose registration was over are called, by one thread and in the order of registration; no handler is called twice; and threads registering and handling never block each other for ever.", "quantifier": "for all numbers of threads, handlers and signals, and all interleavings", "why_tests_cant": "A test cannot make a signal arrive between two given instructions.", "anchors": ["UnixSignal.cpp:40-53", "UnixSignal.cpp:99-107", "UnixSignal.cpp:130-141"]}
{"id": "C123", "title": "Several threads can read from one socket", "statement": "When any number of threads read from one socket, with or without timeout, every packet goes to exactly one of them, in the order of arrival. On a blocking socket a read without timeout never returns -1, and a timed read returns -1 only when its time is up; on a nonblocking socket a read never waits. A timed read is over when its time is up. A thread that replies to the packet it read replies to its sender.", "quantifier": "for all numbers of threads, interleavings, packets, timeouts and changes of the mode", "why_tests_cant": "What happens depends on which thread runs between select and recvfrom; a test cannot enumerate the schedules, and a read that waits for ever is only seen by waiting.", "anchors": ["Sockets.cpp:127-135", "Sockets.cpp:161-168", "Sockets.cpp:206-237"]}
{"id": "C124", "title": "A UDP socket has the port it was made for, and has it alone", "statement": "A UDPSocket whose constructor did not throw is bound to the port it was made for, or for port 0 to one the system chose, until it is closed; port() reports that number and packets for that number are addressed to the socket. The constructor throws SocketError if the port cannot be had, in particular if another socket has it; no two open sockets have the same port.", "quantifier": "for all ports, all sequences of opening and closing by this and other programs, and all choices of the system", "why_tests_cant": "65536 ports and any history of sockets; tests open one or two.", "anchors": ["Sockets.cpp:267-296", "Sockets.cpp:300-310"]}
{"id": "C125", "title": "Adding minutes moves a time by that much", "statement": "addMinutes(n) moves a time by exactly n minutes; a deadline moved by several such calls has passed exactly when the clock is later than the first time by more than the sum.", "quantifier": "for all times, clock readings, numbers of minutes and sequences of calls", "why_tests_cant": "The number of minutes is any unsigned; the wrap of the multiplication is at 71582789.", "anchors": ["Timeval.h:96"]}
{"id": "C126", "title": "Macros for logging and assertions act as single statements", "statement": "Wherever a statement may stand, LOG, WATCH, COUT, devassert and LOG_ASSERT can be used as one: whatever surrounds them, what is logged, printed or asserted is decided by their own position and level, and they change neither which other statements of the function are executed nor how often; a use for which this cannot be so does not compile.", "quantifier": "for all function bodies built from expressions, if, else, blocks and the macros, all states and all effects of conditions and expressions", "why_tests_cant": "The programs using the macros are not part of the library; the tests would have to include every way of writing an if around a macro, at every log level.", "anchors": ["Logger.h:56-116", "Defines.h:44-46", "Threads.h:55-56"]}
{"id": "C127", "title": "Signal objects do not disturb each other", "statement": "A handler registered with a UnixSignal object is called when its signal arrives, as long as the object exists, whatever other objects are made and destroyed; after the object is destroyed its handlers are not called and nothing destroyed is used; signals the program has set itself stay as set unless something is registered for them. Dump shows what was registered.", "quantifier": "for all histories in which objects are made and destroyed, handlers registered, signals set by the program, and signals delivered", "why_tests_cant": "The tests use the one global object and never see its end; the interplay of objects, and what happens to signals set by other parts of the program, is over unbounded histories.", "anchors": ["UnixSignal.cpp: UnixSignal::~UnixSignal, UnixSignal::Register, UnixSignal::Dump, _sigHandler", "Variables.cpp: gSigVec"]}
{"id": "C128", "title": "Soft vectors made from other vectors, and dup, are safe to use", "statement": "Making a SoftVector from a Vector gives a copy ('NOT pass-by-reference'): both show the same elements, changes to one do not show in the other, and the original is unaffected when the copy is gone. segment, head and tail of a constant SoftVector show exactly the elements asked for, stop on an assertion beyond the end, and nothing done with the result changes the constant vector. x.dup(y) makes the bit vector x show the elements of y.", "quantifier": "for all vectors and their contents, ranges, sequences of writes through both objects, owners and aliases, and for compilers that leave out the copy and those that do not", "why_tests_cant": "Which constructor runs, who owns the block and whether a copy is left out decides between a copy, an alias and freed memory; tests with one compiler and short-lived objects see only one of them, and reading freed memory usually still shows the old values.", "anchors": ["BitVector.h: SoftVector(Vector<float>), SoftVector::segment const, SoftVector::head, SoftVector::tail, BitVector::dup", "Vector.h: Vector(Vector&), Vector(const Vector&)"]}
{"id": "C129", "title": "The report of a blocked mutex names the locks that are held", "statement": "The text of Mutex::mutext, which is printed when a thread waits more than a second for a mutex, gives the number of locks held and the file and line of each of the first five, oldest first, with a question mark for those made without a place. This holds for nested locks and for every mixture of lock, trylock and unlock by any number of threads.", "quantifier": "for all numbers of threads, places, nesting depths, interleavings, first contents of the array of lines and moments of reading", "why_tests_cant": "The report is read without holding the mutex, while other threads change what it reads; a test would have to hit the few instructions between the stores, and every interleaving counts.", "anchors": ["Threads.cpp: Mutex::mutext, Mutex::lock, Mutex::trylock, Mutex::unlock, Mutex::timedlock", "Threads.h: Mutex::maxLocks"]}
{"id": "C130", "title": "Calls with a time limit sleep with the lock released until the limit", "statement": "A timed read of an empty InterthreadQueue, InterthreadQueueWithWait or InterthreadPriorityQueue, a timed get of a missing key from an InterthreadMap, and iqWaitForEither on two empty queues, release the lock and sleep as long as time is left, instead of polling; the sleep ends within a millisecond of the limit.", "quantifier": "for all numbers of threads, states, time limits, starting times and clock readings", "why_tests_cant": "Whether a wait is rejected by the system depends on the microsecond at which it begins; a test meets the failing microsecond about once in a million tries, and polling looks the same as sleeping from the outside.", "anchors": ["Threads.cpp: Signal::wait", "Interthread.h: InterthreadQueue::read, InterthreadQueue::iqWaitForEither, InterthreadQueueWithWait::read, InterthreadMap1::get, InterthreadPriorityQueue::read", "Timeval.cpp: Timeval::future, Timeval::timespec"]}
{"id": "C131", "title": "The start of the configuration lists exactly the changed parameters", "statement": "When a ConfigurationTable is made it logs at level INFO each parameter of the schema whose value in force differs from its default, with name, value and default, in the order of the names, and no other; whatever is read meanwhile and however long it takes. With the default log level nothing of this is written.", "quantifier": "for all databases, schemas, names of programs, moments and lookups in between", "why_tests_cant": "The list depends on the whole database and schema and on lookups, purges of the cache and other tables in between; tests see a few configurations.", "anchors": ["Configuration.cpp: ConfigurationTable::ConfigurationTable, ConfigurationTable::getSimilarKeys, ConfigurationTable::getStr", "Logger.h: LOGVAR"]}
{"id": "C132", "title": "Going through an InterthreadQueue under its lock is safe and sees a fixed picture", "statement": "A thread that locks qGetLock(), goes from begin() to end() and unlocks sees exactly the items that were in the queue when it began, in order, each once, followed by the items its own loop body appended, whatever other threads write, read or clear; no iterator is used after its item is gone. begin() without any lock held fails an assertion.", "quantifier": "for all queues, numbers of threads and interleavings of their calls and loops", "why_tests_cant": "A reader removing the item under the iterator depends on the scheduling; a test that never meets the interleaving passes.", "anchors": ["Interthread.h: InterthreadQueue::qGetLock, begin, end, iqConnect, write, write_front, readNoBlock, clear"]}
{"id": "C133", "title": "The memory statistics are exact with any number of threads", "statement": "With counted objects made and destroyed on any number of threads, the statistics for a class show exactly the objects alive and the objects ever made whenever no constructor or destructor of the class is under way; a listing printed meanwhile is off by at most one, never negative; no counter is lost. The same holds for the numbers of labels.", "quantifier": "for all numbers of threads, interleavings and moments of printing", "why_tests_cant": "Lost updates need a switch between the read and the write of a counter; tests on one thread never see them.", "anchors": ["MemoryLeak.h: MemStats, RN_MEMCHKNEW, RN_MEMCHKDEL, RN_MEMLOG, MemLabel", "Utils.cpp: MemStats::memChkNew, MemStats::memChkDel, MemStats::text, gMemStats"]}
{"id": "C134", "title": "The elements of arrays of counters do not interfere", "statement": "incr, max and clear with a base name and an index affect exactly the element that create(base,min,max) made for this index: different pairs of base and index are different parameters, and after any calls for any elements of any arrays a commit stores for each element its former value and the number of its own increments.", "quantifier": "for all bases, indices below 10^8, and histories of calls and parts of commits", "why_tests_cant": "Bases that end in digits or dots can make names alike; tests use a few bases and small indices.", "anchors": ["Reporting.cpp: ReportingTable::incr, ReportingTable::max, ReportingTable::clear, ReportingTable::create, ReportingTable::commit"]}
{"id": "C135", "title": "F16 arithmetic obeys the laws of arithmetic up to rounding", "statement": "F16 sums and products commute, sums can be regrouped and undone exactly, one and zero are neutral, multiplication by numbers that are not negative keeps the order; a quotient times its divisor, regrouped products, distributed products and changed signs differ from the exact law by at most the stated number of units in the last place, as long as intermediate results fit.", "quantifier": "for all F16 values with intermediate results in range", "why_tests_cant": "Rounding errors appear only for some of the 2^96 triples of values; tests try a few.", "anchors": ["F16.h: F16::operator+, F16::operator-, F16::operator*, F16::operator/, F16::F16(int)"]}
{"id": "C136", "title": "format prints its arguments as printf would", "statement": "format(fmt, ...) called with one argument for every conversion, of the type printf asks for or a std::string for %s, returns the format with the conversions replaced in order.", "quantifier": "for all formats made of text, %%, %s, %d, %u, %x, %ld, %lu, %f with flags and widths, and all suitable arguments of the types std::string, const char*, int, unsigned, long, unsigned long, double and the literal 0", "why_tests_cant": "The header overloads format for eight combinations of string and int; which function a call means is decided by the types of all arguments together, and tests use only some combinations.", "anchors": ["Utils.h: format, format1", "Utils.cpp: format, format1"]}
{"id": "C137", "title": "RefCntPointer is safe with several threads", "statement": "When several threads have RefCntPointers to the same objects, each using its own variables and handing pointers over to others, an object exists as long as there is a pointer to it, it is deleted exactly once when the last pointer goes, no use of a deleted object happens, and nobody waits for ever.", "quantifier": "for all numbers of threads and objects and all interleavings of copying, destroying and handing over pointers, with at most 32767 pointers and threads", "why_tests_cant": "The count is changed in several steps and the object is deleted after its mutex is released; whether two last destructions can delete twice or never depends on the interleaving.", "anchors": ["Utils.h: RefCntPointer", "Utils.cpp: RefCntBase::incRefCnt, RefCntBase::decRefCnt"]}
{"id": "C138", "title": "An InterthreadQueue can be destroyed when it is no longer needed", "statement": "When a queue is destroyed after the last item was taken from it, or with items left, nothing is used after its end by any thread; items that are left are deleted once, and every other item was given to exactly one reader. Connected queues can be destroyed in any order.", "quantifier": "for all numbers of threads and queues, all ways of connecting them, and all interleavings of the calls and the destructors", "why_tests_cant": "The writer signals after it has released the lock, so whether the reader of the item may destroy the queue depends on the interleaving, and the use of a signal after its end mostly goes unnoticed.", "anchors": ["Interthread.h: InterthreadQueue::~InterthreadQueue, clear, iqConnect, write, write_front, read, readNoBlock, iqWaitForEither"]}
{"id": "C139", "title": "Messages can be logged from constructors and destructors of static objects", "statement": "A static object can log messages in its constructor and in its destructor, whatever the order in which the files of the program are linked: nothing of the logger or of the configuration table is used before its construction or after its destruction, every message not suppressed by the level reaches the system log once and in order, and messages of level CRIT or more severe reach the standard error output and, once the logger is constructed, the list of alarms.", "quantifier": "for all programs with any number of static objects and any messages in their constructors, in main and in their destructors, all orders of the files, and all levels", "why_tests_cant": "The order of construction of static objects of different files is chosen by the linker, and the order of destruction follows from it; a test sees one of them, and use before construction often goes unnoticed.", "anchors": ["Logger.cpp: sLoggerInited, Log::~Log, addAlarm, gGetLoggingLevel, gLogInit, gLogEarly, gGetLoggerAlarms, alarmsLock, alarmsList, gLogToLock, gLogGroup", "Logger.h: LOG, _LOG", "Configuration.cpp: ConfigurationTable::ConfigurationTable"]}
{"id": "C140", "title": "A listing shows one state of the configuration, also when other threads change it", "statement": "ConfigurationTable::getAllPairs returns, and find prints, the rows of the table as they are at one moment of the call, also when other threads call set and remove meanwhile: each key at most once, with the value it has at that moment, and no combination of values that was never in the table.", "quantifier": "for all tables, all numbers of set and remove calls of other threads with any keys and values, and all moments at which they happen between the rows of the listing", "why_tests_cant": "A test would have to change the table between two rows of a listing, and try all moments and all sequences of changes.", "anchors": ["Configuration.cpp: ConfigurationTable::getAllPairs, ConfigurationTable::find, ConfigurationTable::set, ConfigurationTable::remove, createConfigTable", "sqlite3util.cpp: sqlite3_run_query"]}
{"id": "C141", "title": "The thread that got a semaphore can destroy it", "statement": "When a get or semtry has succeeded and no thread is about to call the semaphore, it can be destroyed at once, for example because it is a local variable of the thread that waited: threads that are still inside post do not use it any more.", "quantifier": "for any number of threads, all sequences of post, get and semtry, and all interleavings and spurious wakeups", "why_tests_cant": "The time between the moment when the waiting thread can go on and the return of post is a few instructions long; a test hits it rarely, and use of a destroyed mutex often has no visible effect.", "anchors": ["Interthread.h: Semaphore, Semaphore::post, Semaphore::get, Semaphore::semtry", "Threads.cpp: Mutex::unlock, Mutex::~Mutex", "Threads.h: Signal::signal"]}
{"id": "C142", "title": "Encoded texts decoded by constructors of static objects", "statement": "decodeToString returns the bytes of a hex or base64 text, or an error for a wrong character, also when a constructor of a static object of another file calls it, whatever the order in which the files are linked.", "quantifier": "for all sequences of static objects, all places of the object of Utils.cpp among them, all calls made by their constructors, all texts and encodings", "why_tests_cant": "A test calls the decoders from main, when all static objects exist; whether a constructor of a static object runs before that of Utils.cpp depends on the order of the object files on the command line of the linker.", "anchors": ["Utils.cpp: decodeToString, hexDecodeToString, base64DecodeToString, BaseNDecoder, sBaseNDecoderInit"]}
{"id": "C143", "title": "The log file when it is opened while other threads log", "statement": "gLogInit (or gLogInitWithFile) can be called while other threads log: the file then holds the line with the starting time and every record begun after the call returned, each as a line of its own, those of each thread in its order; nothing is lost.", "quantifier": "for any number of threads, all records, all interleavings of the destructors of records with the steps of the calls, failing fopen included", "why_tests_cant": "The log file is opened once at the start of a program, and the window between setting the pointer and writing the first line is a few instructions; a test would have to hit it.", "anchors": ["Logger.cpp: gLogInit, gLogInitWithFile, Log::~Log, gLogToFile, gLogToLock"]}
{"id": "C144", "title": "Names and values in messages", "statement": "A statement that writes texts and LOGVAR, LOGVAR2, LOGVARM, LOGVARP, LOGHEX, LOGHEX2, LOGVARRANGE, RN_PRETTY_TEXT or RN_WRITE_OPT_TEXT of integer expressions to a stream prints, in order, for each of them the name and the value of the expression, and leaves the stream as it was (decimal).", "quantifier": "for all expressions of the C++ operators (with conditionals, casts and parentheses) as arguments, all values and integer types of the variables, all sequences of texts and macros", "why_tests_cant": "Macros are replaced before the expression is parsed; a wrong value is printed only with particular operators in an argument, and such a message looks like any other. Tests use variables as arguments.", "anchors": ["Logger.h: LOGVAR, LOGVAR2, LOGVARM, LOGVARP, LOGVARP2, LOGHEX, LOGHEX2, LOGVARRANGE", "Defines.h: RN_PRETTY_TEXT, RN_PRETTY_TEXT1, RN_WRITE_TEXT, RN_WRITE_OPT_TEXT"]}
{"id": "C145", "title": "RN_BOUND limits a value", "statement": "RN_BOUND(value,min,max) is the value nearest to value between min and max; for every expression as argument.", "quantifier": "for all argument expressions, integer types and values; for arguments that change between evaluations", "why_tests_cant": "Only particular mixtures of signed and unsigned arguments, or another thread changing a variable between two evaluations in the expansion, give a wrong value.", "anchors": ["Defines.h: RN_BOUND"]}
{"id": "C146", "title": "Statistics after a crash", "statement": "When a process that counts in a ReportingTable ends at any point, then every counter in the file has the value it had at one of two moments: the start of the last commit or the start of the one before; counters with the later value come first in the order of the names, and nothing counted before the start of a commit that returned is missing. Over any number of processes one after the other the file holds the sum of such counts; maxima are never lost; a creation of parameters that was interrupted can be repeated and keeps all values.", "quantifier": "for all interleavings of create, incr, max and one committing thread, all points at which the process ends, all sequences of such processes, all sets of names", "why_tests_cant": "A crash can happen between any two statements of a commit; tests would have to stop the process at every such point for every content of the batch.", "anchors": ["Reporting.cpp: ReportingTable::create, incr, max, commit"]}
{"id": "C147", "title": "A block with parity on its way through an interleaver and a noisy channel", "statement": "A block with a parity word, interleaved with map, sent as soft bits, sliced, put back with unmap and checked with syndrome arrives with exactly the errors of the channel at their places in the block, and is accepted exactly if the generator polynomial divides the polynomial of these errors: never rejected when no soft bit is moved by one half, always rejected when the errors are near each other in the block, or odd in number for a generator with an even number of terms.", "quantifier": "for all generators of degree 1 to 63, parity inverted or not, all permutations as interleavers, all data, all vectors of soft bits that arrive", "why_tests_cant": "There are 2^n error patterns for every block, table and generator; which of them pass unnoticed is a question of divisibility.", "anchors": ["BitVector.cpp: Parity::writeParityWord, BitVector::map, SoftVector::SoftVector, SoftVector::sliced, BitVector::unmap, Parity::syndrome"]}
{"id": "C148", "title": "The configuration after a crash", "statement": "Processes that use the configuration table one after the other, each with any number of threads and ending at any moment, see one map that survives: every set, remove and read acts on it at a single moment between its call and its return, and a call that had not returned when the process ended acted wholly or not at all. A value whose set returned is what every later process reads, until it is set or removed again.", "quantifier": "for all histories of calls in any number of threads and processes, all interleavings of their steps and all moments at which a process ends", "why_tests_cant": "The process would have to be stopped between any two steps of any call, while other threads are in the middle of theirs.", "anchors": ["Configuration.cpp: ConfigurationTable::ConfigurationTable, set, remove, lookup, checkCacheAge, purge"]}
{"id": "C149", "title": "The text of a Statistic", "statement": "A Statistic that has been given samples prints the one value if all samples are equal, and otherwise the last, the least and the greatest sample, the average, and the number of samples: exactly up to 999999, and above that rounded so that it reads as a number within half a percent of the true one; a greater number of samples never reads as a smaller one, and the buffer for the short form is never overrun.", "quantifier": "for all sequences of up to 2^32-1 samples", "why_tests_cant": "The rounding and the removal of characters from the text depend on every one of four thousand million counts, and reaching a count takes that many samples.", "anchors": ["Utils.h: Statistic::text, addPoint"]}
{"id": "C150", "title": "Values printed one after the other", "statement": "Values of the library printed one after the other on a stream look as each of them does by itself on a stream in the same state, and leave that state as it was; bit vectors, soft bits and objects with a text function look the same in every state, whatever the text function does to its own stream; a width fills up the whole value.", "quantifier": "for all sequences of values, all states of the stream, all text functions and all formats of numbers", "why_tests_cant": "Each operator is tested with a fresh stream; what one value leaves behind shows only in another one printed later, for particular pairs and states.", "anchors": ["BitVector.cpp: operator<<, BitVector::hex", "Vector.h: operator<<", "Timeval.cpp: operator<<", "F16.h: operator<<", "Utils.cpp: Text2Str, operator<<, osprintf", "Utils.h: Statistic::text"]}
{"id": "C151", "title": "Going through an InterthreadMap", "statement": "A thread that holds the lock of an InterthreadMap can go through it with begin and end while it writes, removes and takes elements: the elements are seen in the order of their keys, each at most once and as it is at that moment; every element that is in the map ahead of the iterator is seen unless it is erased before; the loop ends if nothing is written ahead of it; and no other thread changes the map meanwhile.", "quantifier": "for all maps, all key types, all sequences of changes made in each turn, depending on what was seen, and all events of other threads", "why_tests_cant": "Iterators that dangle depend on which element is removed in which turn; a test covers a few, and an iterator into freed memory often seems to work.", "anchors": ["Interthread.h: InterthreadMap1::begin, InterthreadMap1::end, InterthreadMap1::qGetLock", "Interthread.h: InterthreadMap1::write, InterthreadMap1::remove, InterthreadMap1::getNoBlock"]}
{"id": "C152", "title": "Alarms of several threads", "statement": "When several threads log alarms and look at the alarm list while the limit is changed, the list is always what the alarms make of it one after the other; none is lost or entered twice, each thread's alarms stay in order, and a look returns the list as it was at one moment, with all alarms that were complete when it began.", "quantifier": "for all numbers of threads, schedules, alarms and changes of the limit", "why_tests_cant": "What a look returns and in which order alarms are entered depends on the schedule; tests see a few.", "anchors": ["Logger.cpp: addAlarm, gGetLoggerAlarms"]}
{"id": "C153", "title": "Several programs use one configuration", "statement": "When several programs use one configuration database, everything a program reads is what the database held at one moment, less than three seconds before the call; for one key these moments never go back, so a program sees its own changes and never an older value after a newer one; three seconds after the last change of a key all programs agree on it.", "quantifier": "for all numbers of programs, all schedules of their calls down to the single database access and cache access, all changes by other users of the database, and all clocks that are not set back", "why_tests_cant": "The windows between a program's access to the database and to its cache are a few instructions wide; a test does not hit them with a second program.", "anchors": ["Configuration.cpp: ConfigurationTable::lookup, ConfigurationTable::set, ConfigurationTable::remove, ConfigurationTable::checkCacheAge"]}
{"id": "C154", "title": "Several programs count into one reporting database", "statement": "When several programs use one reporting database, nothing is counted twice and no program disturbs what another counted: the value of a counter is its first value and, for every run of every program, what that run counted up to some moment not before the beginning of its last finished commit; when all have committed it is the number of all increments. A reader never sees a counter go down, and a maximum is the largest value any program reported.", "quantifier": "for all numbers of programs, all interleavings of their statements and threads, and all points at which programs end and start again", "why_tests_cant": "A test runs one program; the interleavings of the statements of several, each possibly ending in the middle of a commit, are too many.", "anchors": ["Reporting.cpp: ReportingTable::create, ReportingTable::incr, ReportingTable::max, ReportingTable::clear, ReportingTable::commit"]}
{"id": "C155", "title": "Calls of a queue by a thread that has locked it", "statement": "A thread that has locked an InterthreadQueue with qGetLock can call its functions until it unlocks it: nobody else's calls take effect meanwhile, each of its own calls has the result of a queue it has for itself, and every call returns.", "quantifier": "for all queues, all sequences of calls of the thread that has the lock, all calls of other threads and all schedules", "why_tests_cant": "That a wait under a lock taken twice keeps the lock shows only when the queue happens to be empty, and then as a hang without message; which calls get in between depends on the schedule.", "anchors": ["Interthread.h: InterthreadQueue::qGetLock, InterthreadQueue::read, InterthreadQueue::write, InterthreadQueue::readNoBlock", "Threads.h: Signal::wait"]}
{"id": "C156", "title": "The average of a Statistic is accurate", "statement": "However many samples a Statistic has got, getAvg returns their mean up to rounding in the last place; it lies between the least and the largest sample.", "quantifier": "for all sequences of samples, whole or fractional, of every length below 2^32", "why_tests_cant": "Rounding errors add up over a history; losses begin after millions of samples and depend on their order and size.", "anchors": ["Utils.h: Statistic::addPoint, Statistic::getAvg"]}
{"id": "C157", "title": "A value that passed the check is read as what was checked", "statement": "A value that isValidValue accepted for a key and that was then set is read by the program as a value of that key: getNum and getFloat return a number within the range, getBool what the value says, and an address with port resolves to that host and that port.", "quantifier": "for all keys with clean names, all ranges, all accepted values, all histories before and all times after", "why_tests_cant": "The check and the readings are separate parsers (streams, strtol with base 0, strtof); they differ on few texts, and a test of either alone does not show it.", "anchors": ["Configuration.cpp: ConfigurationTable::isValidValue, ConfigurationRecord::number, ConfigurationRecord::floatNumber, ConfigurationTable::getNum, ConfigurationTable::getBool, ConfigurationTable::getFloat", "Sockets.cpp: resolveAddress"]}
{"id": "C158", "title": "Bit vectors sent as datagrams arrive whole or not at all", "statement": "A bit vector that is packed, sent with a datagram socket, read and unpacked on the other side is one of the vectors sent, whatever the network loses, repeats or puts into another order: never a part of one or a mixture of two.", "quantifier": "for all vectors and sizes, all sockets, all contents of the buffer before, and all sequences of arriving packets", "why_tests_cant": "Which packets arrive and in what order is up to the network; a mixture shows only after two packets of different sizes, a loss only above a size.", "anchors": ["BitVector.cpp: BitVector::pack, BitVector::packToString, BitVector::unpack", "Sockets.cpp: DatagramSocket::write, DatagramSocket::read"]}
{"id": "C159", "title": "Time limits are kept when the system clock is set", "statement": "A timed read on a queue that stays empty returns after its time limit, also when somebody sets the system clock during the call.", "quantifier": "for all time limits, all moments and amounts of setting the clock, any number of times, and all speeds of the thread", "why_tests_cant": "Setting the clock of the machine during a call is not something a test does, and which moment matters depends on whether the call looks or sleeps then.", "anchors": ["Interthread.h: InterthreadQueue::read(unsigned)", "Threads.cpp: Signal::wait(Mutex&, long)", "Timeval.cpp: Timeval::future, Timeval::timespec", "Timeval.h: Timeval::now, Timeval::remaining"]}
{"id": "C160", "title": "Bits written through a vector and its segments, in any order", "statement": "After any calls that fit their vectors, made on a bit vector and on segments, heads and tails of it in any order, each bit has the value given by the last call that covers its position, whichever vector that call used; bits no call covers are unchanged; a field read through any of the vectors is made of these bits. A call that does not fit fails by assertion and changes nothing.", "quantifier": "for all contents, all sequences of calls of any length, all fields, values, widths and views, nested and overlapping", "why_tests_cant": "Messages are built from fields that overlap or are filled later through segments; the combinations of views, orders and widths are endless and a test fixes one.", "anchors": ["BitVector.cpp: BitVector::fillField, BitVector::fillFieldReversed, BitVector::peekField, BitVector::peekFieldReversed, BitVector::unpack, BitVector::invert", "BitVector.h: BitVector::segment, BitVector::head, BitVector::tail, BitVector::alias, BitVector::settfb, BitVector::zero", "Vector.h: VectorBase::fill, VectorBase::copyToSegment"]}
{"id": "C161", "title": "With the update hook the configuration is never stale", "statement": "When the function given to setUpdateHook purges the table, as the comment on setUpdateHook asks, every read returns what is in the database at that moment, whoever changed it.", "quantifier": "for all histories of calls of this program and changes by others, all keys, values and times", "why_tests_cant": "A stale value shows only when another program writes between two reads that are less than three seconds apart, and depends on which calls came in between.", "anchors": ["Configuration.h: ConfigurationTable::setUpdateHook", "Configuration.cpp: ConfigurationTable::setUpdateHook, ConfigurationTable::purge, ConfigurationTable::set, ConfigurationTable::remove, ConfigurationTable::lookup"]}
{"id": "C162", "title": "InterthreadQueueWithWait as a bounded buffer", "statement": "When every producer calls wait(N) before each write, the queue never holds more than N+1 items, the producers and readers never all end up asleep, and each producer gets its turn once at most N items are left.", "quantifier": "for all numbers of threads, all N, all items and all interleavings of wait, write, the reads, size and clear", "why_tests_cant": "How many producers slip between another's wait and its write, and whom a signal wakes, depends on the schedule; a test sees one schedule.", "anchors": ["Interthread.h: InterthreadQueueWithWait::wait, InterthreadQueueWithWait::write, InterthreadQueueWithWait::read, InterthreadQueueWithWait::readNoBlock, InterthreadQueueWithWait::clear"]}
{"id": "C163", "title": "Items passed along a chain of queues arrive complete and in order", "statement": "When one thread between each InterthreadQueue and the next does next.write(this.read()) in a loop, then at every moment the items that came out of the last queue, followed by those on their way, are exactly the items written into the first queue, in the order of the writes; each thread between the queues has at most one of them; and when nothing moves any more, all have reached the last queue.", "quantifier": "for every length of the chain, any number of threads writing into the first and reading from the last queue, all items and all interleavings", "why_tests_cant": "An item lost or overtaken between two queues shows only in some schedules of many threads, and the longer the chain the more of them there are.", "anchors": ["Interthread.h: InterthreadQueue::read, InterthreadQueue::readNoBlock, InterthreadQueue::write, InterthreadQueue::front, InterthreadQueue::size"]}
{"id": "C164", "title": "Structures linked by RefCntPointers are freed safely, once, and completely", "statement": "A program may build lists, trees and graphs of objects that have members of type RefCntPointer, and change them with the constructors, both operator=, free() and the end of variables, also through members as in p = p->next. Every such operation completes without using an object that was deleted; what the program can still reach through its variables exists; every object is deleted at most once; and everything it can no longer reach has been deleted.", "quantifier": "for every sequence of such operations, every shape and size of structure, with up to 32765 references to each object", "why_tests_cant": "Deleting one object releases its members, which may delete further objects while the call that started it is still under way; which objects go, and in which order, depends on the whole shape of the structure and its history.", "anchors": ["Utils.h: RefCntPointer::rcInc, RefCntPointer::rcDec, RefCntPointer::RefCntPointer, RefCntPointer::~RefCntPointer, RefCntPointer::operator=, RefCntPointer::free, RefCntPointer::operator->", "Utils.cpp: RefCntBase::incRefCnt, RefCntBase::decRefCnt"]}
{"id": "C165", "title": "Calls on queues, maps and semaphores do not keep each other going", "statement": "The calls made on an InterthreadQueue, InterthreadQueueWithWait, InterthreadPriorityQueue, two connected queues or a Semaphore take, taken together, at most 7 steps each (taking the lock, a pass through the critical section, a notification, an unlock, a return), plus 2 for each wakeup that no notification caused; on an InterthreadMap used by n threads at most 2n+5 each. So, with reads without time limits, once no calls are begun any more the threads come to rest by themselves: every thread is outside of calls, or waits on a queue that is empty.", "quantifier": "for every number of threads, every mix of calls and every schedule", "why_tests_cant": "Woken readers that find nothing wait again, and each write wakes somebody; that such rounds cannot go on for ever, or grow with the history, depends on all the schedules there are.", "anchors": ["Interthread.h: InterthreadQueue, InterthreadQueueWithWait, InterthreadPriorityQueue, InterthreadMap1, Semaphore", "Threads.h: Signal::wait, Signal::signal, Signal::broadcast"]}
{"id": "C166", "title": "Programs may regard calls on queues, maps and semaphores as indivisible", "statement": "Take any program whose threads share any number of InterthreadQueues, InterthreadMaps, InterthreadPriorityQueues and Semaphores. Whatever point it comes to, with whatever results of calls and contents of the objects, it could also come to if each call were a single indivisible step that happens when the call can be done. If it comes to a standstill, then so does the program with indivisible calls, with the same threads in the same calls: locking and notification add no deadlock. And without time limits it can come to every point the program with indivisible calls can come to. If the program with indivisible calls comes to an end after a bounded number of calls, so does the real one, after at most 7 steps inside the objects per call (for a map 5 and two per thread) and two per wakeup out of turn.", "quantifier": "for every program, number of threads, number and mix of objects, and every schedule", "why_tests_cant": "A test tries some programs under some schedules; that nothing a thread could notice comes from the inside of these classes, in combination, is a statement about all programs and all interleavings of all objects.", "anchors": ["Interthread.h: InterthreadQueue, InterthreadMap1, InterthreadPriorityQueue, Semaphore", "Threads.h: Mutex, Signal"]}
{"id": "C167", "title": "A pool of workers between two queues delivers every result once, and always finishes", "statement": "Any number of producers write items to an InterthreadQueue, any number of workers read items there and write one result each to a second InterthreadQueue, and any number of collectors each read a given number of results. At every moment what the collectors have read are results of items that were to be written, each used once. If there is at least one worker and no more results are wanted than there are items, all collectors get all their results, under every schedule; and if as many are wanted as there are items, these are the results of all items, each exactly once. All threads together make at most three calls per item, one per worker and one per wanted result.", "quantifier": "for every number of producers, workers and collectors, all items, every function the workers compute, and every schedule", "why_tests_cant": "Results lost, doubled or stuck depend on the interleaving of all threads in both queues; a test sees a few schedules of a few threads.", "anchors": ["Interthread.h: InterthreadQueue::write, InterthreadQueue::read"]}
{"id": "C168", "title": "A semaphore that one thread sets up works as a lock", "statement": "Take any program in which one thread begins as the owner of a Semaphore, owners give it up with post, other threads take it with get, or with semtry when that returns true, and nothing else is done with it; besides, the threads may use any number of queues, maps, priority queues and semaphores. Then two threads never own it at the same time, and none owns it while it is posted. It is not lost: if the program comes to a standstill with a thread asleep in get, another thread owns it and has ended, or sleeps in a call on another object. Any number of threads that each take and give it up a given number of times all do so, under every schedule.", "quantifier": "for every program of this kind, every number of threads and rounds, and every schedule", "why_tests_cant": "That no interleaving of post, get and semtry lets two threads in, or lets the flag disappear, is a statement about all schedules of all such programs.", "anchors": ["Interthread.h: Semaphore::post, Semaphore::get, Semaphore::semtry"]}
{"id": "C169", "title": "With requests over a queue and answers over a map, every client gets the answers to its own requests", "statement": "Any number of clients, each with its own key, write requests carrying their key to an InterthreadQueue, and after each wait for the answer with get of an InterthreadMap under their key, taking it out; any number of servers read requests and write the answers to the map under the key of the request. At every moment what a client has got are the answers to its own first requests, in order. If there is at least one server, every client gets all its answers, under every schedule. All threads together make at most four calls per request and one per server.", "quantifier": "for every number of clients and servers, all requests, every function the servers compute, and every schedule", "why_tests_cant": "An answer given to the wrong client, overwritten before it is read, or waited for in vain depends on how all threads interleave in both objects.", "anchors": ["Interthread.h: InterthreadQueue::write, InterthreadQueue::read", "Interthread.h: InterthreadMap1::write, InterthreadMap1::get"]}
{"id": "C170", "title": "A pool of workers is shut down by stop items without losing work", "statement": "Any number of producers write items to an InterthreadQueue, each with a stop item last; workers read items and write results to a second queue, and end when they read a stop item; collectors read the results. At every moment what has been collected are results of items other than stop items, each used once, and no more workers have ended than there are stop items. If there are no more stop items than workers, then under every schedule every item is worked on, every result is collected and as many workers end as there are stop items; with as many stop items as workers, all of them.", "quantifier": "for every number of producers, workers and collectors, all items, every function the workers compute, and every schedule", "why_tests_cant": "Whether a worker can end while work remains, or a stop item can overtake an item of another producer, depends on how all threads interleave.", "anchors": ["Interthread.h: InterthreadQueue::write, InterthreadQueue::read"]}
{"id": "C171", "title": "Sections under a lock are indivisible, down to single accesses to memory", "statement": "A section of code under a Mutex may be regarded as one step: whatever threads do whose sections are interrupted by other threads (and by changes of the clock) between any two accesses to memory, there is an execution with indivisible sections with the same calls and returns in the same order, all threads in the same places, and the same data outside of sections; and conversely. This holds for every class in which all data is accessed under one lock and in which no pass through a section reads the clock more than once. For InterthreadQueueWithWait on the nodes and pointers of PointerFIFO: as long as fewer than 2^32 calls of write have been made, each execution access by access corresponds to one of the queue as a list, no thread ever touches anything but a node of the queue, and a thread that goes on comes to the end of its section (unless Timeval::remaining overflows).", "quantifier": "for every class of this form, every number of threads, every sequence of calls, every schedule down to single accesses to memory, and all initial contents of memory", "why_tests_cant": "The interleavings of single memory accesses are far too many to run; a test exercises a handful of them and cannot see that the others change nothing.", "anchors": ["Threads.h: class Mutex, class ScopedLock", "Interthread.h: class InterthreadQueueWithWait", "LinkedLists.cpp: PointerFIFO::put, PointerFIFO::get, PointerFIFO::allocate, PointerFIFO::release"]}
{"id": "C172", "title": "Queues, maps, priority queues and semaphores work as described however their calls interrupt each other inside", "statement": "Between any two calls on the container inside (the list, the map, the priority queue, the flag), a call of InterthreadQueue, of the two queues with a common lock, of InterthreadMap, of InterthreadPriorityQueue or of Semaphore may be interrupted by calls of other threads and by changes of the clock. All the same, users see nothing but indivisible calls: there is an execution with indivisible sections with the same calls and returns in the same order, all threads in the same places, and the same contents outside of sections. Conversely every execution with indivisible sections occurs (except that the order of equal elements of the priority queue is left open). No thread ever calls front, pop or erase on a container that does not have the element, and a thread that goes on always comes to the end of its section (unless Timeval::remaining overflows).", "quantifier": "for every number of threads, every sequence of calls, every schedule down to single calls on the containers, and for priority queues every strict order", "why_tests_cant": "The interleavings of the steps inside of the calls are far too many to run, and a test sees only that nothing has gone wrong so far.", "anchors": ["Interthread.h: class InterthreadQueue, class InterthreadMap1, class InterthreadPriorityQueue, class Semaphore", "Threads.h: class Mutex, class ScopedLock"]}
{"id": "C173", "title": "Things handed over through queues, maps and semaphores need no lock of their own", "statement": "If each thread uses an object only while it has it (from when it made it, or received it with read, with a get that removes, with clear, or by getting the semaphore that protects it, until it hands it over with write or post), then there is no data race: any two uses of the same object by any threads are ordered by happens-before as C++ defines it, so that each use sees what the one before it left. This covers the uses inside of the classes themselves (the comparisons of InterthreadPriorityQueue, the deletions in clear, remove and write), and any number of objects of the classes InterthreadQueue, connected InterthreadQueues, InterthreadQueueWithWait, InterthreadMap, InterthreadPriorityQueue and Semaphore. At each time each object belongs to one thread or is in one container only, and none is lost: an object that was there at the beginning is still with a thread, in a call or in a container (objects that clear, remove and write delete count as belonging to the thread that makes the call).", "quantifier": "for every number of threads and containers, every sequence of calls and uses, and every schedule", "why_tests_cant": "Data races show up only under unlucky timing and on some processors; a test run, even with a race detector, sees the orders that happened and not the others.", "anchors": ["Interthread.h: class InterthreadQueue, class InterthreadQueueWithWait, class InterthreadMap1, class InterthreadPriorityQueue, class Semaphore", "Threads.h: class Mutex, class ScopedLock"]}
{"id": "C174", "title": "Data guarded by a Mutex or an RWLock are used without data races", "statement": "If each variable is used only by threads that have its guard -- they were told by lock, ScopedLock, trylock or timedlock that they got its Mutex, nested as deep as they like, and have not called unlock as often; or they are in a section of its RWLock, a writing one if they write -- then there is no data race: of two uses of one variable, at least one of them writing, the earlier happens before the later as C++ defines it. The one exception for a Mutex is a direct timedlock whose deadline is a full second (it may report success without the lock): then there are executions with a data race. RWLocks must be used in an orderly way: no locking inside of a writing section of the same thread, no unlocking outside of sections, not more readers than the system allows.", "quantifier": "for every number of threads, mutexes, RWLocks and variables, every program that keeps the discipline, and every schedule", "why_tests_cant": "Data races show up only under unlucky timing and on some processors; a test sees the orders that happened. The nested and the failing lock operations add cases that cannot all be tried.", "anchors": ["Threads.h: class Mutex, class RWLock, class ScopedLock", "Threads.cpp: Mutex::lock, Mutex::trylock, Mutex::timedlock, Mutex::unlock"]}
{"id": "C175", "title": "Running out of memory inside a call leaves locks free and data intact", "statement": "If an allocation fails inside a call and std::bad_alloc leaves it, then the mutex of the object is locked as often as before, the data are as they were, nobody has been woken, and an item passed stays with the caller; so the call can be repeated once there is memory. Holds of write to queues (both ends, both kinds of list), priority queues and maps, where a key already present needs no memory; and the lock of the configuration is free after a lookup however it ends. Not so where the code uses lock() and unlock(): after a failure in addAlarm, gGetLoggerAlarms, gGetLoggingLevel, ReportingTable::create, incr or commit, or UnixSignal::Register the mutex stays locked exactly once too often and every other thread that locks it waits for as long as that thread does not unlock; commit also loses counts and Register leaves the signal caught without a callback. A configuration lookup whose copy of the row fails answers the default, or that there is no such key, and remembers it.", "quantifier": "for every pattern of failing allocations, all contents, and for the consequence every number of threads and every sequence of events of the others", "why_tests_cant": "Allocations do not fail under test; making each one fail in turn on each path and then looking at locks and contents is what a proof over all patterns does.", "anchors": ["Threads.h: class ScopedLock", "Interthread.h: write, write_front", "LinkedLists.cpp: PointerFIFO::put, PointerFIFO::push_front, PointerFIFO::allocate", "Logger.cpp: addAlarm, gGetLoggerAlarms, gGetLoggingLevel", "Reporting.cpp: ReportingTable::create, ReportingTable::incr, ReportingTable::commit", "UnixSignal.cpp: UnixSignal::Register", "Configuration.cpp: ConfigurationTable::lookup, ConfigurationTable::getStr", "sqlite3util.cpp: sqlite3_single_lookup"]}
{"id": "C176", "title": "The library's own shared variables are used without data races", "statement": "Threads may call the library as they like -- read and change any number of configuration tables, log, raise and list alarms, count reports and commit them, register, run and dump signal callbacks, count memory -- and there is no data race on the alarm list, the cache of log levels and its counter, the caches of the configuration tables, the batch of the reports and the callbacks; nor on the time of the last purge if only one table is read, nor on the memory statistics if nobody prints them. There are data races on the log file pointer, the process number and the log level of mutexes when the logger is started while another thread logs or starts it; on the levels of log groups when they are set while another thread checks one; on the flag that stops the committer of reports; on the schema of the configuration when a value of an unknown key is checked; on the time of the last purge with two tables; and on the memory statistics when they are printed.", "quantifier": "for every number of threads, every sequence of calls by each, every path through the functions and every schedule", "why_tests_cant": "A data race is a matter of which accesses are ordered, not of what was observed; tests see one order and often no effect. That no path through any pair of functions uses a variable without its lock is a statement about all paths.", "anchors": ["Logger.cpp: addAlarm, gGetLoggerAlarms, gGetLoggingLevel, Log::~Log, gLogInit, gLogInitWithFile, LogGroup::setAll", "Logger.h: gCheckGroupLogLevel, gCheckGroupWatchLevel", "Configuration.cpp: ConfigurationTable::lookup, getStr, getNum, set, remove, purge, checkCacheAge, isValidValue, getSimilarKeys", "Reporting.cpp: create, incr, commit, reportingBatchCommitter", "UnixSignal.cpp: Register, Handler, Dump", "Utils.cpp: MemStats::memChkNew, MemStats::memChkDel, MemStats::text"]}
{"id": "C177", "title": "What a thread is given at its start, and what join brings back, is used without data races", "statement": "Threads may start threads on Thread objects, give them data to work on, go on reading data they share with them, join them and use the results: if a thread writes only data it alone may use, reads only data nobody may write meanwhile, calls start and join only on Thread objects nobody else may use meanwhile, gives the right to use data to another thread only by starting it and gets it back only by joining it, then there is no data race: neither on the data, nor on the fields of the Thread objects, nor on the block in which start passes the task and its argument. No two calls on one Thread object are then under way at the same time, so that no thread is lost and join waits for the end of the task. A thread that uses what it gave away before it has joined the other thread races with it.", "quantifier": "for every number of threads, every tree of starts and joins, every division of the data and every schedule", "why_tests_cant": "A data race is a matter of which accesses are ordered, not of what was observed. That the order comes from pthread_create and pthread_join in all programs of this form, and that the library's own block and fields never spoil it, is a statement about all programs and schedules.", "anchors": ["Threads.cpp: Thread::start, thread_main", "Threads.h: Thread::join, Thread::Thread"]}
{"id": "C178", "title": "Programs that start and join threads and lock mutexes have no data races if the right to use data moves with these calls", "statement": "A program may prepare data in one thread, give them to threads it starts, leave them with a mutex for whoever locks it next, take them out of there and keep them, share them for reading, and get them back by join. If each thread writes only what it alone has the right to use, reads only what it has a share of, and calls start and join only on Thread objects it alone has the right to use, and if rights move only by starting a thread, joining it, unlocking a mutex for the last time and locking it for the first time (with lock, trylock or timedlock, nested as one likes), then there is no data race on the data, on Thread objects and on the block start passes to the thread; nor on the record a mutex keeps of its locks, unless a thread waits for it longer than a second and prints a report: that races with the thread that has the mutex.", "quantifier": "for every number of threads and mutexes, every tree of starts and joins, every division of the data, every nesting of locks and every schedule", "why_tests_cant": "A data race is a matter of which accesses are ordered, not of what was observed; the order is made of three kinds of calls in any combination, and tests see one schedule.", "anchors": ["Threads.cpp: Thread::start, thread_main, Mutex::lock, Mutex::trylock, Mutex::timedlock, Mutex::unlock, Mutex::mutext", "Threads.h: Thread::join, Mutex::_lock"]}
{"id": "C179", "title": "Programs that combine threads, mutexes, queues, maps and semaphores have no data races if the right to use data moves with the calls", "statement": "A program may use all means of the library together: it starts and joins threads, leaves data with mutexes, and hands things over through InterthreadQueue (also two that share a lock), InterthreadQueueWithWait, InterthreadMap, InterthreadPriorityQueue and Semaphore objects. Each thing consists of any number of variables, which go with it. If every thread uses only what it has at the time -- what it had at the beginning, was given at its start, got back by join, took over with a mutex, or got from one of these objects, and has not given away since -- then there is no data race on the data, on Thread objects and on the block start passes to a thread. Whoever gets a thing from a call may use all its parts when the call returns; as long as a thing is inside an object nobody outside of a call may use it. A thread that goes on using what it has handed over does race.", "quantifier": "for every number of threads, mutexes and objects, every division of data into things, every sequence of calls by each thread, every schedule and every spurious wakeup", "why_tests_cant": "A data race is a matter of which accesses are ordered, not of what was observed; here the order runs through chains of different means (for example queue, then mutex, then join), and tests see single combinations and schedules.", "anchors": ["Threads.cpp: Thread::start, thread_main, Mutex::lock, Mutex::unlock", "Threads.h: Thread::join, ScopedLock", "Interthread.h: InterthreadQueue, InterthreadQueueWithWait, InterthreadMap1, InterthreadPriorityQueue, Semaphore"]}
{"id": "C180", "title": "Data that move between threads are read as they were written last", "statement": "Memory need not look the same to all threads: a read may give any value whose write does not happen after it and is not hidden by another write in between, in the order that the C++ standard calls happens before. A program that combines threads, mutexes, queues, maps, priority queues and semaphores as in C179, or guards its data by Mutex and RWLock objects as in C174, need not think about this: each read of data, and of what the library itself passes to threads, gives what was written last, by whichever thread, as with one memory for all; threads that read side by side under an RWLock get the same. A thread that reads what it has handed over may get an old value.", "quantifier": "for every program as described, every schedule, every variable, and every choice of values that memory may make", "why_tests_cant": "On the machines on which tests run, memory hardly ever shows old values, and when it does depends on processor, compiler and timing; that it cannot happen follows only from the order of all accesses.", "anchors": ["Threads.cpp: Thread::start, thread_main, Mutex::lock, Mutex::unlock", "Threads.h: Thread::join, ScopedLock, RWLock", "Interthread.h: InterthreadQueue, InterthreadQueueWithWait, InterthreadMap1, InterthreadPriorityQueue, Semaphore"]}
{"id": "C181", "title": "The thread that got the last element can destroy the object it came from", "statement": "When every element handed to an InterthreadMap, InterthreadQueueWithWait or InterthreadPriorityQueue has been received, and no call but calls of write is under way, the object can be destroyed: the threads inside of these calls of write do not use it any more, so that a thread can make such an object, let others answer through it, and destroy it when it has the answers.", "quantifier": "for every number of threads, keys and elements, every sequence of calls and every schedule", "why_tests_cant": "Between the moment the receiver has the element and the moment the writer's call is over there are a few instructions; a test meets them only if the writer is interrupted just there.", "anchors": ["Interthread.h: InterthreadMap1::write, InterthreadMap1::get, ~InterthreadMap1, InterthreadQueueWithWait::write, InterthreadPriorityQueue::write", "Threads.cpp: Mutex::unlock"]}
{"id": "C182", "title": "Mutexes locked in a fixed order, together with queues, maps and semaphores, do not deadlock", "statement": "In a program with any number of mutexes and objects of the interthread classes, in which every thread locks mutexes in one fixed order and makes calls that wait for elements only without a mutex locked, a thread that waits for a mutex always waits, directly or through other threads that wait for mutexes, for a thread that can go on: one that is outside of the library, whose call on a mutex can go on, or that is in a call on an object whose calls go on. No threads wait for each other in a circle.", "quantifier": "for every number of threads, mutexes and objects, every order, every program that follows the rules and every schedule, including locking again what is locked, trylock, timedlock and lock with file and line", "why_tests_cant": "A deadlock shows up only when several threads are interrupted at certain places at the same time; a program can run for years before it happens.", "anchors": ["Threads.cpp: Mutex::lock, Mutex::trylock, Mutex::timedlock, Mutex::unlock", "Threads.h: Mutex", "Interthread.h: InterthreadQueue, InterthreadQueueWithWait, InterthreadMap, InterthreadPriorityQueue, Semaphore"]}
{"id": "C183", "title": "A program can be started again after it has ended", "statement": "When no process of a program is left, the program can be started: its registration succeeds, however the earlier processes ended.", "quantifier": "for every history of any number of processes and programs: registrations, overlapping or not, exits, signals and crashes at any point", "why_tests_cant": "Whether a start works depends on how all earlier processes ended, down to the instruction at which they were killed; a test starts from a clean machine.", "anchors": ["SelfDetect.cpp: SelfDetect::RegisterProgram, SelfDetect::Exit, e, sigfcn"]}
{"id": "C184", "title": "Reader/writer locks taken in a fixed order do not deadlock", "statement": "In a program with any number of RWLocks in which every thread calls wlock and rlock only on locks that come, in one fixed order, later than all it has, a thread that waits always waits, directly or through other threads that wait, for a thread that does not wait; this holds whether the locks prefer readers or let readers wait for waiting writers. With locks that prefer readers, which RWLock gets, a thread may also call rlock again on a lock it reads or writes.", "quantifier": "for every number of threads and locks, every order, every program that follows the rule, every schedule and every policy of the locks between readers and writers", "why_tests_cant": "A deadlock needs several threads at certain places at the same time, and with nested reading also a writer that arrives in between; tests on one system do not show the policy of another.", "anchors": ["Threads.h: RWLock::wlock, RWLock::rlock, RWLock::trywlock, RWLock::tryrlock, RWLock::unlock", "Threads.cpp: RWLock::RWLock"]}
{"id": "C185", "title": "Mutexes and reader/writer locks taken in one fixed order, together with queues, maps and semaphores, do not deadlock", "statement": "In a program with any number of Mutexes, RWLocks and objects of the classes of Interthread.h in which every thread calls lock, wlock and rlock only on locks that come, in one order of all mutexes and reader/writer locks, later than all it has (a mutex may be locked again, and a lock that prefers readers read again), and calls that wait for an element are made without locks, a thread that waits for a lock waits, directly or through others that wait for locks, for a thread that can go on. With locks that prefer readers no thread waits for itself through others.", "quantifier": "for every number of threads, locks and objects, every order, every program that follows the rule, every schedule and every policy of the locks between readers and writers", "why_tests_cant": "A deadlock needs several threads at certain places at the same time; programs that keep an order among the mutexes and one among the reader/writer locks look orderly and pass tests, but can deadlock.", "anchors": ["Threads.h: Mutex::lock, Mutex::trylock, Mutex::timedlock, Mutex::unlock, RWLock::wlock, RWLock::rlock, RWLock::trywlock, RWLock::tryrlock, RWLock::unlock", "Threads.cpp: Mutex::lock, RWLock::RWLock", "Interthread.h: InterthreadQueue, InterthreadQueueWithWait, InterthreadMap, InterthreadPriorityQueue, Semaphore"]}
{"id": "C186", "title": "The list of callers in a report, and joined texts", "statement": "rn_backtrace returns, after \"backtrace:\", the texts of the innermost 30 callers, or of all if there are fewer, in order and each after a blank, so that they can be read from it; or the text \"backtrace failed\", never a part of a list; it leaves with no exception and keeps no memory, also when memory runs out at any point. stringcat joins its two to seven arguments in order.", "quantifier": "for all lists of callers and their texts, and all points at which memory runs out", "why_tests_cant": "Memory runs out at arbitrary points, which a test can not choose; a lost block is not seen by a test of the result.", "anchors": ["Utils.cpp: rn_backtrace, stringcat", "Threads.cpp:166"]}
{"id": "C187", "title": "Programs that lock in a fixed order and join only later threads, without locks, do not deadlock", "statement": "In a program that follows the rule of C185, and in which threads call join only for threads that come later in a fixed order (as those they have started do), and join and end without locks, every thread that has not ended goes on, or waits for an element of a queue, map or semaphore, or waits, directly or through others that wait for locks or in join, for a thread that goes on or waits for an element. A thread that waits for a lock never waits through a join.", "quantifier": "for every number of threads, locks and objects, every order, every program that follows the rule, every schedule and every policy of the locks between readers and writers", "why_tests_cant": "Whether a thread is joined while it, or another thread it waits for, needs a lock of the joining thread depends on the schedule.", "anchors": ["Threads.h: Thread::join, Mutex::lock, RWLock::wlock, RWLock::rlock", "Interthread.h: InterthreadQueue, InterthreadQueueWithWait, InterthreadMap, InterthreadPriorityQueue, Semaphore"]}
{"id": "C188", "title": "Signals that leave the program running do not disturb a thread that waits for a packet or sleeps", "statement": "A signal whose default action does not end the program (the window of the terminal has another size, stop from the terminal, urgent data) does not disturb a thread that waits in DatagramSocket::read, with or without a time limit, or that sleeps in sleepf or msleep: the read returns what it would have returned without the signal, and the sleep takes its whole time.", "quantifier": "for every sequence of such signals with their times, every set of signals with a handler, every time limit and every delay of the message", "why_tests_cant": "A test would have to deliver a signal to the waiting thread at the right time; test programs do not register for all signals as SelfDetect does.", "anchors": ["Sockets.cpp: DatagramSocket::read(char*), DatagramSocket::read(char*, unsigned)", "Utils.cpp: sleepf", "Timeval.h: msleep", "UnixSignal.cpp: _sigHandler, UnixSignal::Register", "SelfDetect.cpp: SelfDetect::RegisterProgram"]}
