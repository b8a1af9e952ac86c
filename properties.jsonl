{"id": "C01", "title": "Integer argument round trip", "statement": "Every integer value passed to NANO_LOG, of any of the eight fixed-width integer types, is recovered from the compressed log as exactly that value when it is read back at its own type, and as the C conversion of that value when it is read back at another integer type that is no wider (small signed types count as int, the type they are promoted to).", "quantifier": "all integer types, all values of the type, all read-back types", "why_tests_cant": "There are 2^64 values per type and the encoding changes at every byte boundary and at the negative thresholds; tests sample a few values.", "anchors": ["runtime/Packer.h: pack(char**,T) lines 95-130, pack(int32_t) 145-152, pack(int64_t) 154-163, pack(long long) 165-172, unpack 247-265"]}
{"id": "C02", "title": "Pointer and floating point arguments are bit exact", "statement": "A pointer, float, double or long double passed to NANO_LOG is read back from the log with exactly the same bits, and the reader consumes exactly the bytes the writer produced.", "quantifier": "all 64-bit pointer values and all byte patterns of the three floating types", "why_tests_cant": "NaN payloads, denormals and all-ones patterns are too many to enumerate; the length tag of a 16 byte value wraps to 0 in 4 bits.", "anchors": ["runtime/Packer.h: pack(T*) 208-212, pack floats 225-231, unpack floats 273-290"]}
{"id": "C03", "title": "Packed size of an argument", "statement": "An integer argument never occupies more bytes in the log than its declared type has, an unsigned value uses the smallest possible number of bytes, and the size tag always fits in the half byte reserved for it.", "quantifier": "all integer types and values", "why_tests_cant": "Exhaustive testing over 2^64 values is impossible.", "anchors": ["runtime/Packer.h: pack 95-172"]}
{"id": "C04", "title": "Argument list boundaries", "statement": "When any list of scalar arguments is written to the log, the reader recovers every argument in order, and computes from the size tags alone the exact position where the scalars end and the strings begin.", "quantifier": "all list lengths (odd and even), all element kinds and values", "why_tests_cant": "The number of arguments is unbounded and the half-byte packing depends on parity.", "anchors": ["runtime/Packer.h: TwoNibbles 76-79, getSizeOfPackedValues 304-329, Nibbler 335-408"]}
{"id": "C05", "title": "Message header round trip", "statement": "The log identifier and the timestamp of a message are recovered exactly, for any identifier and any pair of current and previous timestamps, including timestamps that go backwards or differ by almost 2^64.", "quantifier": "all 32-bit ids, all pairs of 64-bit timestamps", "why_tests_cant": "The pair space is 2^128; the wrap-around of the delta is not reachable by realistic tests.", "anchors": ["runtime/Log.h: compressLogHeader 530-548, decompressLogHeader 565-584, CompressedEntry 246-259"]}
{"id": "C06", "title": "Extent header round trip", "statement": "The thread id, the start-of-pass flag and the byte length stored at the head of a batch of messages are recovered exactly for any 32-bit thread id.", "quantifier": "all thread ids, both flag values, all lengths below 2^32", "why_tests_cant": "Ids switch representation at 16 and at each byte boundary; tests only use small ids.", "anchors": ["runtime/Log.cc: encodeBufferExtentStart 419-448, readBufferExtent 1192-1237", "runtime/Log.h: BufferExtent 270-298"]}
{"id": "C07", "title": "Staging buffer is a lossless FIFO under every interleaving", "statement": "The bytes the background thread obtains from a logging thread's buffer are exactly the bytes that thread published, in order, with no loss, duplication or corruption, whatever the interleaving of the two threads.", "quantifier": "all interleavings of single shared-memory accesses, all message sizes, all buffer capacities, unbounded executions", "why_tests_cant": "A test exercises a handful of schedules; the number of schedules is unbounded.", "anchors": ["runtime/RuntimeLogger.h: StagingBuffer 314-487", "runtime/RuntimeLogger.cc: reserveSpaceInternal 751-812, peek 826-844"]}
{"id": "C08", "title": "Reserved space never overlaps unread data", "statement": "Space handed to a logging thread lies entirely inside the buffer and contains no byte that has been published but not yet consumed.", "quantifier": "all interleavings, sizes, capacities", "why_tests_cant": "Overlap needs a specific position of both cursors and a specific race.", "anchors": ["runtime/RuntimeLogger.h: reserveProducerSpace 333-343", "runtime/RuntimeLogger.cc: reserveSpaceInternal 751-812"]}
{"id": "C09", "title": "Exactly the messages smaller than the buffer can be logged", "statement": "Once the background thread has drained a logging thread's buffer and keeps up, a reservation of n bytes succeeds within a bounded number of steps if n is smaller than the buffer size; a reservation of the buffer size or more never succeeds.", "quantifier": "all sizes, all reachable buffer states", "why_tests_cant": "A liveness statement over all reachable states; a test can only observe one state and a timeout.", "anchors": ["runtime/RuntimeLogger.cc: reserveSpaceInternal 751-812, peek 826-844"]}
{"id": "C10", "title": "Empty is distinguishable from full", "statement": "The background thread sees a logging thread's buffer as empty only when every published byte has been consumed, and a single inspection returns fewer bytes than the capacity, so the size histogram is indexed within bounds.", "quantifier": "all reachable states and interleavings", "why_tests_cant": "The two cursors are equal both in a full and in an empty ring; only an invariant excludes the full case.", "anchors": ["runtime/RuntimeLogger.cc: reserveSpaceInternal 759-763, peek 826-844, compressionThreadMain 430-433", "runtime/RuntimeLogger.h: checkCanDelete 386-389"]}
{"id": "C11", "title": "A thread's buffer is freed only after its messages are consumed", "statement": "The buffer of a logging thread is deleted only after that thread has exited and every message it published has been taken over by the background thread.", "quantifier": "all executions with any number of threads starting, logging and exiting", "why_tests_cant": "Depends on the race between thread exit and the background scan.", "anchors": ["runtime/RuntimeLogger.h: checkCanDelete 386-389, StagingBufferDestroyer 498-518", "runtime/RuntimeLogger.cc: compressionThreadMain 474-495"]}
{"id": "C12", "title": "A log call writes exactly the bytes it reserved", "statement": "For every format string and argument list, the number of bytes a log call reserves equals the number of bytes it writes.", "quantifier": "all parameter-type lists, all argument lists, all string lengths and precisions", "why_tests_cant": "The size is computed by one recursion and the write done by another; a mismatch appears only for particular combinations.", "anchors": ["runtime/NanoLogCpp17.h: getArgSize 551-659, getArgSizes 699-721, store_argument 368-436, store_arguments 468-492, log 994-1047"]}
{"id": "C13", "title": "Logged arguments are recovered", "statement": "For every list of format parameters and matching arguments, decoding the compressed form of a log call yields each scalar with its value and each string with its bytes, truncated to its precision if one was given.", "quantifier": "all parameter lists, all argument values, all string contents without NUL", "why_tests_cant": "Unbounded argument lists, strings and precisions; two-pass layout depends on the mix of strings and scalars.", "anchors": ["runtime/NanoLogCpp17.h: compressSingle 744-815, compress 918-956", "runtime/Log.cc: decompressNextLogStatement 1404-1669"]}
{"id": "C14", "title": "Compression never overruns the output buffer", "statement": "Compressing a message never writes outside the output buffer, including the bytes written past the logical end of an integer.", "quantifier": "all messages, all buffer fill levels", "why_tests_cant": "Overrun needs a message whose worst case meets the end of the 64 MB buffer.", "anchors": ["runtime/Log.cc: encodeLogMsgs 366-372, encodeBufferExtentStart 424-426, encodeNewDictionaryEntries 146-164", "runtime/Packer.h: pack 95-130"]}
{"id": "C15", "title": "A batch encodes a whole number of messages", "statement": "Encoding a batch of queued messages consumes a prefix consisting of whole messages, reports exactly its byte length, and the produced extent decodes to exactly those messages with their ids, timestamps and arguments.", "quantifier": "all queues of messages, all batch limits, all free-space values, all dictionaries", "why_tests_cant": "Message boundaries against the batch limit and the space left combine without bound.", "anchors": ["runtime/Log.cc: encodeLogMsgs 306-402, decompressNextLogStatement 1315-1680, readBufferExtent 1192-1237"]}
{"id": "C16", "title": "Encoding makes progress after a flush", "statement": "If the encoder reports that it consumed nothing, then after the output buffer is flushed and new static information is written, the next attempt consumes at least one message.", "quantifier": "all queues whose messages are below half the staging buffer size", "why_tests_cant": "A stuck encoder is a liveness failure for specific sizes.", "anchors": ["runtime/Log.cc: encodeLogMsgs 306-402", "runtime/RuntimeLogger.cc: compressionThreadMain 401-414, 460-464, 594-624"]}
{"id": "C17", "title": "The decoder accepts every extent the runtime writes", "statement": "Every extent written by the logger fits in the decoder's fixed extent storage.", "quantifier": "all batches of messages each smaller than half the staging buffer", "why_tests_cant": "The bound mixes compression growth, the batch limit and the storage size.", "anchors": ["runtime/Log.cc: encodeLogMsgs 306-402, readBufferExtent 1192-1211", "runtime/Log.h: BufferFragment storage 880-900", "runtime/Config.h"]}
{"id": "C18", "title": "A complete log file decodes to the messages written", "statement": "Decoding a log file produced by any sequence of encoder operations yields exactly the messages encoded, in file order, each with the static information of its own log statement.", "quantifier": "all sequences of checkpoint, dictionary and batch operations, with any contents", "why_tests_cant": "The history of operations is unbounded.", "anchors": ["runtime/Log.cc: Encoder 94-448, internalDecompressUnordered 1725-1783"]}
{"id": "C19", "title": "Static information precedes use", "statement": "In every log file, a message appears only after the static information for its identifier has appeared in the same file, also after the log file is switched at run time.", "quantifier": "all interleavings of registration, logging, background scanning and file switches", "why_tests_cant": "Depends on the race between registration and the background thread.", "anchors": ["runtime/RuntimeLogger.cc: compressionThreadMain 401-414, setLogFile_internal 632-674", "runtime/Log.cc: encodeLogMsgs 326-342"]}
{"id": "C20", "title": "Log statements get unique, dense, stable identifiers", "statement": "Each log statement receives exactly one identifier, however many threads execute it for the first time at once; different statements get different identifiers; identifiers are 0,1,2,... in registration order and index the right static information for ever after.", "quantifier": "all interleavings of any number of threads executing any log statements", "why_tests_cant": "The double-checked registration race has unboundedly many schedules.", "anchors": ["runtime/RuntimeLogger.h: registerInvocationSite_internal 51-70", "runtime/NanoLogCpp17.h: log 1008-1020"]}
{"id": "C21", "title": "Static information round trip", "statement": "The file name, format string, line number and severity of every log statement are recovered exactly from the log's dictionary.", "quantifier": "all file names and format strings, all line numbers and severities, any number of entries per fragment", "why_tests_cant": "Strings are unbounded while the length fields have 16 bits.", "anchors": ["runtime/Log.cc: encodeNewDictionaryEntries 140-184, readDictionaryFragment 990-1075", "runtime/Log.h: CompressedLogInfo 362-376, DictionaryFragment 343-354"]}
{"id": "C22", "title": "Compile-time and decode-time format parsing agree", "statement": "For every format string accepted at compile time, the decoder derives the same number and kinds of parameters (string, scalar, dynamic width, dynamic precision) as the logging side used to encode them.", "quantifier": "all format strings over all characters", "why_tests_cant": "Two independent parsers over an infinite language.", "anchors": ["runtime/NanoLogCpp17.h: getParamInfo 131-236, countFmtParams 307-315, getNumNibblesNeeded 330-342", "runtime/Log.cc: createMicroCode 825-979, getFormatType 722-801"]}
{"id": "C23", "title": "No static text is lost or reordered", "statement": "The pieces into which the decoder splits a format string concatenate to the original format string, and each piece holds at most one conversion.", "quantifier": "all format strings", "why_tests_cant": "Infinite set of format strings.", "anchors": ["runtime/Log.cc: createMicroCode 825-979"]}
{"id": "C24", "title": "Iterator and unordered decoding agree", "statement": "Repeated calls to the iterator interface deliver exactly the message sequence that unordered decompression prints, for every file.", "quantifier": "all files produced by the encoder", "why_tests_cant": "Two separate control loops over an unbounded input.", "anchors": ["runtime/Log.cc: internalDecompressUnordered 1725-1783, getNextLogStatement 1987-2057"]}
{"id": "C25", "title": "Ordered decompression neither loses nor duplicates messages", "statement": "Ordered decompression of a log file prints each message exactly once.", "quantifier": "all sequences of extents, any distribution of messages and pass markers", "why_tests_cant": "The staged merge has unboundedly many states.", "anchors": ["runtime/Log.cc: decompressTo 1816-1967, compareBufferFragments 1799-1804"]}
{"id": "C26", "title": "Ordered decompression is chronological", "statement": "If the messages of each extent are in time order and messages written at least three passes apart are in time order, ordered decompression prints all messages in non-decreasing time order.", "quantifier": "all logs satisfying the runtime's guarantee", "why_tests_cant": "Violations need a specific pattern of passes and timestamps.", "anchors": ["runtime/Log.cc: decompressTo 1816-1967"]}
{"id": "C27", "title": "Appended executions are decoded with their own dictionary", "statement": "When a log file contains several executions, every message is printed with the static information and clock calibration of its own execution, in unordered, iterator and ordered decoding.", "quantifier": "all concatenations of executions", "why_tests_cant": "The order in which stages drain relative to a checkpoint depends on all timestamps.", "anchors": ["runtime/Log.cc: decompressTo 1864-1879, internalDecompressUnordered 1759-1765, readDictionary 646-707"]}
{"id": "C28", "title": "A crash loses only the tail", "statement": "Decoding any prefix of a log file, cut at any byte, yields a prefix of the messages of the whole file: messages in extents completely written are all recovered and nothing spurious is produced.", "quantifier": "all files produced by the encoder and all cut points", "why_tests_cant": "Every byte of every file is a possible crash point.", "anchors": ["runtime/Log.cc: readBufferExtent 1192-1237, internalDecompressUnordered 1725-1783, getNextLogStatement 1987-2057, readDictionaryFragment 990-1075", "runtime/Log.h: peekEntryType 477-506"]}
{"id": "C29", "title": "Decoding terminates", "statement": "The decoding loops terminate on every input file.", "quantifier": "all byte strings", "why_tests_cant": "Infinite input space; non-termination cannot be observed by a finite test.", "anchors": ["runtime/Log.cc: internalDecompressUnordered 1725-1783, getNextLogStatement 1987-2057", "runtime/Log.h: peekEntryType 477-506"]}
{"id": "C30", "title": "Per-thread order and completeness in the log", "statement": "At every moment the messages in the log attributed to a thread are a prefix, in call order, of the messages that thread logged; none is lost, repeated or attributed to another thread.", "quantifier": "all executions: any number of threads, any interleaving with the background thread, buffer-full events, thread exits", "why_tests_cant": "Unbounded concurrent executions.", "anchors": ["runtime/RuntimeLogger.cc: compressionThreadMain 353-629", "runtime/Log.cc: encodeLogMsgs 306-402"]}
{"id": "C31", "title": "sync() persists everything logged before it", "statement": "When sync() returns, every message whose log call returned before sync() was called is in the log file.", "quantifier": "all executions with any number of threads logging, exiting and calling sync", "why_tests_cant": "The guarantee is violated only for particular races and buffer-list histories.", "anchors": ["runtime/RuntimeLogger.cc: sync 719-729, compressionThreadMain 383-625"]}
{"id": "C32", "title": "Changing the log file", "statement": "If setLogFile throws, nothing changes; if it returns, all messages logged afterwards go to the new file, none goes to the old one, and the new file can be decoded on its own.", "quantifier": "all histories before the call, all outcomes of the file system checks", "why_tests_cant": "Interaction of unbounded history with the switch.", "anchors": ["runtime/RuntimeLogger.cc: setLogFile_internal 632-674", "runtime/NanoLog.h 65-128"]}
{"id": "C33", "title": "Severity filter", "statement": "After setLogLevel(l) the effective level is l clamped to the valid range, and a log statement is recorded if and only if its severity is at most the effective level.", "quantifier": "all integer level values, all severities, all sequences of setLogLevel calls", "why_tests_cant": "The history of level changes is unbounded and the argument is an int-sized enum.", "anchors": ["runtime/RuntimeLogger.cc: setLogLevel 703-710", "runtime/NanoLogCpp17.h: NANO_LOG 1073-1097"]}
{"id": "C34", "title": "Thread ids in the log are unique", "statement": "Two different logging threads of one execution never share a thread id in the log.", "quantifier": "all interleavings of thread starts and exits", "why_tests_cant": "Allocation races with other threads and with deletion.", "anchors": ["runtime/RuntimeLogger.h: ensureStagingBufferAllocated 172-185"]}
{"id": "C35", "title": "Decoded message argument container", "statement": "A decoded message returns as its i-th argument the i-th value decoded, for any number of arguments and any reuse of the container.", "quantifier": "all sequences of reset and push, all counts", "why_tests_cant": "Growth happens at powers of two times ten; unbounded counts.", "anchors": ["runtime/Log.h: LogMessage 719-855", "runtime/Log.cc: LogMessage::reserve 523-552, reset 566-573"]}
{"id": "C36", "title": "Dynamic width and precision", "statement": "A message with a dynamic width or precision is printed with the same conversion arguments as printf would receive, for every int value of the width and precision.", "quantifier": "all int values of width and precision, all combinations present or absent", "why_tests_cant": "Negative values are legal in printf and are an unbounded corner of the input space.", "anchors": ["runtime/Log.cc: printSingleArg 1256-1284, decompressNextLogStatement 1436-1450"]}
{"id": "C37", "title": "Preprocessor identifiers are unique", "statement": "In preprocessor mode, two log statements that differ in file, line or format string get different generated identifiers.", "quantifier": "all pairs of format strings, file names and line numbers", "why_tests_cant": "A collision needs a specific pair of strings.", "anchors": ["preprocessor/FunctionGenerator.py: generateLogIdStr 894-898, generateLogFunctions 346-351"]}
{"id": "C38", "title": "Generated record/compress/decompress code round trip", "statement": "For every format string the preprocessor accepts, the generated record function writes exactly the bytes it allocates, and the generated compress and decompress functions recover every argument.", "quantifier": "all format strings and argument values", "why_tests_cant": "The generated code differs for each format string.", "anchors": ["preprocessor/FunctionGenerator.py: generateLogFunctions 343-711"]}
{"id": "C39", "title": "Preprocessor and decoder split format strings alike", "statement": "For every format string accepted by the preprocessor, the dictionary it generates describes the same conversions as the run-time parser of the decoder.", "quantifier": "all format strings", "why_tests_cant": "Two implementations in two languages over an infinite language.", "anchors": ["preprocessor/FunctionGenerator.py: splitAndParseTypesInFmtString 738-872", "runtime/Log.cc: createMicroCode 825-979"]}
{"id": "C40", "title": "Literal extraction by the preprocessor", "statement": "The preprocessor extracts the exact contents of every valid C string literal (or concatenation of literals) given as a format string.", "quantifier": "all string literals", "why_tests_cant": "Infinite set of literals; escapes interact with the quote scanner.", "anchors": ["preprocessor/parser.py: extractCString 113-132"]}
{"id": "C41", "title": "Argument splitting by the preprocessor", "statement": "The preprocessor finds the end of each argument of a log statement at the first comma or closing parenthesis outside nested brackets and string literals.", "quantifier": "all argument texts with balanced brackets and string literals", "why_tests_cant": "Infinite set of argument expressions.", "anchors": ["preprocessor/parser.py: parseArgumentStartingAt 147-203, parseLogStatement 226-272"]}
{"id": "C42", "title": "Wall-clock time of a message", "statement": "The seconds and nanoseconds printed for a message denote the exact time checkpoint + (timestamp difference)/frequency, with nanoseconds in [0, 10^9), also for messages logged before the checkpoint.", "quantifier": "all timestamps, checkpoints and positive frequencies (exact arithmetic)", "why_tests_cant": "Borrow and rounding cases are rare in the value space.", "anchors": ["runtime/Log.cc: decompressNextLogStatement 1349-1367"]}
{"id": "C43", "title": "Double buffering never corrupts an outstanding write", "statement": "While a buffer is being written to disk, the encoder does not modify it; every buffer is handed to the disk exactly once, in order, with exactly the bytes encoded.", "quantifier": "all sequences of scans, write completions and flushes", "why_tests_cant": "Races between completion and reuse are timing dependent.", "anchors": ["runtime/RuntimeLogger.cc: compressionThreadMain 537-625", "runtime/Log.cc: swapBuffer 473-495"]}
{"id": "C44", "title": "Padding is ignored by the decoder", "statement": "Zero bytes inserted between records of a log file do not change the decoded messages.", "quantifier": "all files, all numbers and positions of padding bytes between records", "why_tests_cant": "Unbounded positions and lengths.", "anchors": ["runtime/Log.cc: internalDecompressUnordered 1769-1773, getNextLogStatement 2042-2046", "runtime/Log.h: peekEntryType 477-506"]}
{"id": "C45", "title": "A decoder can be reused", "statement": "After open() on a new file, a decoder delivers only messages of the new file, whatever was read before.", "quantifier": "all histories of previous use", "why_tests_cant": "History dependent.", "anchors": ["runtime/Log.cc: open 1086-1105, getNextLogStatement 1987-2057"]}
{"id": "C46", "title": "Every scan pass visits every thread", "statement": "A completed scan pass of the background thread inspects every thread buffer that existed during the whole pass, and never indexes outside the list of buffers.", "quantifier": "all list lengths, all starting positions, all patterns of buffer deletion", "why_tests_cant": "The index arithmetic with deletions has unboundedly many cases.", "anchors": ["runtime/RuntimeLogger.cc: compressionThreadMain 418-505"]}
{"id": "C47", "title": "Aggregation over messages", "statement": "The minMaxMean command reports the minimum, maximum and truncated mean of the first int argument over exactly the messages with the requested id.", "quantifier": "all message sequences", "why_tests_cant": "Unbounded sequences; the empty case divides by zero.", "anchors": ["runtime/LogDecompressor.cc: main 289-330"]}
{"id": "C48", "title": "Time trace output", "statement": "A time trace prints events of all threads merged in time order, each retained event at most once and none older than the oldest time covered by every thread.", "quantifier": "all buffer contents and numbers of threads", "why_tests_cant": "Ring wrap-around and merge order have unboundedly many cases.", "anchors": ["runtime/TimeTrace.cc: record 125-147, printInternal 213-338"]}
{"id": "C49", "title": "Dictionary of preprocessor mode", "statement": "The dictionary that the generated writeDictionary puts behind the checkpoint never exceeds the buffer, and the decoder reads it back as, for every id, the file, line, level, argument kinds and text of the statement with that id, whatever was in the buffers before.", "quantifier": "all statement lists, buffer sizes and old memory contents", "why_tests_cant": "Any number of statements of any length; lengths come from source text while bytes come from the compiled literal, so only special texts (escapes, null characters) show a mismatch.", "anchors": ["preprocessor/FunctionGenerator.py: 266-271, 632-690", "runtime/Log.cc: insertCheckpoint 46-79, readDictionary 646-707"]}
{"id": "C50", "title": "Log files of preprocessor mode", "statement": "A log file written by executions using generated code decodes without error to exactly the calls consumed by the encoder, in order, each with the right thread, time stamp, checkpoint, context, text and arguments; both with the dictionary in the file and with generated decompression functions.", "quantifier": "all programs, calls, batches, buffer boundaries and numbers of executions appended", "why_tests_cant": "Unbounded sequences of operations; old memory contents and appended executions interact with the decoder's raw metadata memory.", "anchors": ["runtime/Log.cc: Encoder 94-126, encodeLogMsgs 211-274, readDictionary 646-707, decompressNextLogStatement 1315-1680", "preprocessor/FunctionGenerator.py: 155-295, 343-711"]}
{"id": "C51", "title": "Statements found and replaced by the preprocessor", "statement": "The preprocessor replaces exactly the log statements of a translation unit: outside of them every character of the program keeps its value, order, file and line, each statement becomes a call of its record function with the same arguments and position, and the record functions used are put into the file once.", "quantifier": "all preprocessed texts, line markers, statements over several lines and several statements in a line", "why_tests_cant": "Texts are unbounded, and wrong line numbers or changed characters appear only for particular mixes of line markers, literals and line breaks; compilation of the result rarely shows them.", "anchors": ["preprocessor/parser.py: processFile 323-575, parseLogStatement 226-272, peekNextMeaningfulChar 295-320"]}
{"id": "C52", "title": "Calls of sync and setLogFile return", "statement": "Every call of sync, and every call of setLogFile, returns after finitely many steps.", "quantifier": "all infinite executions with fair scheduling of the threads, a disk that completes its writes and notifications that reach a waiting thread; any number of threads, messages and files", "why_tests_cant": "Liveness over infinite executions: a test that does not return within its time limit shows nothing, and one that returns shows one schedule.", "anchors": ["runtime/RuntimeLogger.cc: sync 719-729, setLogFile_internal 632-674, compressionThreadMain 383-625"]}
{"id": "C53", "title": "Messages reach the file without sync", "statement": "Every message whose log call has returned is in the log file, decodable and in order, after finitely many further steps, without any call of sync.", "quantifier": "all infinite executions with fair scheduling, a disk that completes its writes, any number of threads and messages", "why_tests_cant": "Liveness over infinite executions and unboundedly many interleavings; a message that is stuck for one schedule is not seen in others.", "anchors": ["runtime/RuntimeLogger.cc: compressionThreadMain 353-629", "runtime/Log.cc: encodeLogMsgs 306-402, encodeNewDictionaryEntries 140-184"]}
{"id": "C54", "title": "The decoder's memory for static information", "statement": "Provided the decoder's single allocation has room (three bytes for each byte of the dictionary fragments of one execution suffice): the records that createMicroCode writes into it, with 8-bit counters incremented in place and the last fragment extended afterwards, are read back by the interpreter as the meaning of the format string; they never overlap or change earlier records, rejected format strings leave the end unchanged, and decoding a log file with this memory gives the same result as with an abstract list of records. Nothing in the code checks the condition: for every size of the allocation there is a valid dictionary for which the decoder writes outside.", "quantifier": "all log statements that fit their fields, all dictionaries, all earlier contents of the memory, all files (also damaged ones) that have a defined result", "why_tests_cant": "Format strings, dictionaries and memory contents are unbounded; an overlap shows only for particular lengths and stale bytes.", "anchors": ["runtime/Log.cc: createMicroCode 825-979, readDictionaryFragment 990-1075, readDictionary 646-707, decompressNextLogStatement 1315-1680", "runtime/Log.h: PrintFragment 412-429, FormatMetadata"]}
{"id": "C55", "title": "What is written to the file, with and without direct I/O", "statement": "For every setting of FILE_PARAMS, the bytes handed to the operating system for a full or partial output buffer stay inside that buffer, and the resulting file decodes to exactly the messages encoded; with O_DIRECT every write is a multiple of 512 bytes.", "quantifier": "all runs of the encoder, all buffer contents and lengths, both settings", "why_tests_cant": "The default configuration never executes the padding, and its effect depends on the length of each buffer.", "anchors": ["runtime/RuntimeLogger.cc: compressionThreadMain 589-624", "runtime/Config.h: FILE_PARAMS 28"]}
{"id": "C56", "title": "A failed write loses only its own messages", "statement": "If writes to the log file fail or are short, every message of the other writes is still delivered by the decoder, unchanged, and no message is delivered that was not logged.", "quantifier": "all runs, any number and position of failed or short writes", "why_tests_cant": "Write errors are not produced by the tests, and which bytes are lost depends on the disk.", "anchors": ["runtime/RuntimeLogger.cc: compressionThreadMain 563-577, 605-624", "runtime/Log.cc: readDictionaryFragment 990-1075, readBufferExtent 1192-1237"]}
{"id": "C57", "title": "The counters reported by getStats", "statement": "At every time logsProcessed equals (modulo 2^64) the number of messages encoded so far, totalBytesRead the sum of their sizes in the staging buffers, totalBytesWritten the bytes of all log files plus those of the outstanding write, and numAioWritesCompleted (modulo 2^32) the number of finished writes; once everything is written logsProcessed equals the number of messages that decoding all files yields; the printed range of the compression ratio goes from the ratio with padding to the ratio without.", "quantifier": "all executions of the runtime, any number of threads, messages and log files; all sequences of buffer sizes", "why_tests_cant": "The counters depend on where chunks, full buffers and switches of files fall in an execution.", "anchors": ["runtime/RuntimeLogger.cc: getStats 139-232, compressionThreadMain 436-470, 574-612", "runtime/Log.cc: encodeLogMsgs 306-402"]}
{"id": "C58", "title": "The histograms", "statement": "For every staging buffer 'Allocations' is the number of requests for space, 'Times Blocked' the number of those that had to wait for the consumer, and the distribution of waiting times sorts these requests by the time they took; recording the size found by peek never leaves the array, and getHistograms never divides by zero.", "quantifier": "all interleavings of producer and consumer, all buffer sizes below 2^32, all message sizes and waiting times, both settings of RECORD_PRODUCER_STATS", "why_tests_cant": "RECORD_PRODUCER_STATS is off by default; the index depends on how much data the consumer finds.", "anchors": ["runtime/RuntimeLogger.cc: getHistograms 243-306, compressionThreadMain 430-433, reserveSpaceInternal 751-812", "runtime/RuntimeLogger.h: reserveProducerSpace 333-343"]}
{"id": "C59", "title": "Nothing is lost when the process ends", "statement": "When the process exits, the static RuntimeLogger is destroyed; after its destructor the messages of all log calls that had returned before it began are in the log files and are decoded in order per thread. The files do not change afterwards, freed output buffers are not used again, no step is undefined, and the destructor returns.", "quantifier": "all executions of the runtime up to and after the destructor, any number of threads, messages and log files, any steps of other threads meanwhile", "why_tests_cant": "Whether the last message is written depends on where in its pass the background thread is when main returns and on which threads have just ended.", "anchors": ["runtime/RuntimeLogger.cc: ~RuntimeLogger 108-136, sync 719-729, compressionThreadMain 354-640", "runtime/RuntimeLogger.h: nanoLogSingleton"]}
{"id": "C60", "title": "The reverse distribution printed by rcdfTime", "statement": "The command rcdfTime prints the reverse cumulative distribution of the times between neighbouring messages: beside each value the share of the differences that are larger (at least as large in the last line), every difference is within the bound of a printed one, and the mean is the mean of the differences; values are in nanoseconds of the machine that logged.", "quantifier": "all log files and lists of differences of any length, all bounds and frequencies", "why_tests_cant": "No test looks at the output of this command; the errors appear with equal values, short logs, several threads or another machine.", "anchors": ["runtime/LogDecompressor.cc: runRCDF 81-113, main 228-265", "runtime/Cycles.cc: fromSeconds 139-144, toSeconds"]}
{"id": "C61", "title": "The decompressor program", "statement": "The program chooses the command by its arguments: unknown commands and missing arguments give the usage and status 1 without reading the file, unreadable files give status 1, ids that are not non-negative numbers are refused; decompress and decompressUnordered print every message of the file exactly once, the last line gives their number, and the status is 0 only if the file was complete; find lists the log statements that contain the text.", "quantifier": "all command lines, all log files with any number of executions, threads and messages, all points at which a file may end", "why_tests_cant": "The integration test compares the output for one file; command lines, ids with other characters and truncated files are not tried.", "anchors": ["runtime/LogDecompressor.cc: main 157-287, printLogMetadataContainingSubstring 48-74", "runtime/Log.cc: getNextLogStatement 1987-2057, decompressTo 1817-1975"]}
{"id": "C62", "title": "Measuring and converting cycles", "statement": "The frequency measured by Cycles::init differs from that of the counter by at most 0.001%, and the first checkpoint of a log contains it. Conversions between cycles and times are rounded to the nearest integer and can be reversed; sleep(us) returns when us microseconds have passed and not before.", "quantifier": "all sequences of clock readings with any delays and interruptions, all frequencies, all cycle counts and times", "why_tests_cant": "Tests use a mock frequency; the measurement depends on the clock, on interruptions and on the order of static initialization.", "anchors": ["runtime/Cycles.cc: init 42-93, fromSeconds 138-144, toMicroseconds 160-164, toNanoseconds 180-186, fromNanoseconds 201-207, sleep 220-225", "runtime/Log.cc: insertCheckpoint 46-75", "runtime/RuntimeLogger.cc: nanoLogSingleton 36, RuntimeLogger 104, compressionThreadMain 365"]}
{"id": "C63", "title": "The staging buffer is a queue of messages", "statement": "If messages have at least one byte and the background thread consumes whole messages of those it was shown, then every execution of the staging buffer is one of a queue of messages: a message arrives in one step, in the order of completion; peek reports empty only if the queue is empty and otherwise returns exactly the bytes of one or more whole messages from its front, also around the end of the ring; consume removes them; the buffer is deleted only if the queue is empty and every completed message arrived. The bytes queued are always fewer than the size of the ring.", "quantifier": "all sizes of the ring, all messages, all interleavings of the single loads and stores of both threads with any delay of the stores", "why_tests_cant": "Whether a message is ever shown in part depends on when single stores reach memory and on the position of the end of the ring; tests observe few interleavings.", "anchors": ["runtime/RuntimeLogger.h: reserveProducerSpace 333-343, finishReservation 352-361, consume 373-377, checkCanDelete 386-389", "runtime/RuntimeLogger.cc: reserveSpaceInternal 751-812, peek 826-844, compressionThreadMain 436-480"]}
{"id": "C64", "title": "Formatting into a string and dumps of memory", "statement": "Util::format returns exactly the text vsnprintf produces, after at most two rounds, however long it is. Util::hexDump terminates and prints one line for each 16 bytes; from line k a reader recovers the offset 16 k and exactly the bytes of the buffer there, and between the bars the same bytes with points for unprintable characters, so that the dump determines the buffer.", "quantifier": "all texts, all buffers and sizes", "why_tests_cant": "The second round, texts with null characters, lengths at the limit of int and buffers whose last line is incomplete in each of 15 ways, with every byte value, are not enumerable.", "anchors": ["runtime/Util.cc: format 36-44, vformat 46-70, hexDump 77-115"]}
{"id": "C65", "title": "Aggregation of printed numbers", "statement": "The script aggregateArg1.py takes from each line the number after the last '# ' that is followed by a digit and prints minimum, maximum, average rounded down, count and sum of these numbers. The program aggregate takes from each line the number after the first occurrence of the text and prints minimum, maximum, mean rounded towards zero, sum and count.", "quantifier": "all files", "why_tests_cant": "Zeros at particular places, files without matches, without final newline, with long lines or large sums each need their own test; the claim is about all files.", "anchors": ["benchmarks/aggregation/aggregateArg1.py 6-31", "benchmarks/aggregation/aggregate.cpp 18-71"]}
{"id": "C66", "title": "The whole runtime over byte-wise staging buffers", "statement": "With every store of a logging thread and every load of the background thread a separate step, and stores delayed in the processors' store buffers, the runtime behaves as with queues of whole messages: no step is undefined, no buffer is used after its deletion, every file decodes to a prefix of each thread's calls, once consumed and written nothing is missing, and sync covers all calls that returned before it.", "quantifier": "all programs, all interleavings of stores, loads and steps of any number of threads, all sizes of the staging buffer", "why_tests_cant": "Whether a message is complete when the background thread reads it, and whether a deleted buffer can still receive a store, depends on the delay of each single store relative to each single load; no test controls these.", "anchors": ["runtime/RuntimeLogger.cc: compressionThreadMain 418-503, reserveSpaceInternal 741-812, peek 826-844", "runtime/RuntimeLogger.h: 333-389, 511-516", "runtime/NanoLogCpp17.h: log 1015-1047"]}
{"id": "C67", "title": "Messages reach the file, with the staging buffers byte by byte", "statement": "In every fair execution of the runtime with byte-wise staging buffers and delayed stores, every message whose log call has returned is decoded from the files from some time on, in order and without gaps for each thread, although threads go on logging.", "quantifier": "all programs, all infinite executions that are fair to the background thread, the disk and the pending stores, any number of threads", "why_tests_cant": "It is a statement about infinite executions and about every delay of every store; a test ends after finitely many steps and sees one schedule.", "anchors": ["runtime/RuntimeLogger.cc: compressionThreadMain 354-629, reserveSpaceInternal 741-812, peek 826-844", "runtime/RuntimeLogger.h: 333-389, 511-516", "runtime/NanoLogCpp17.h: log 1015-1047"]}
{"id": "C68", "title": "Every log call returns", "statement": "In every fair execution of the runtime with byte-wise staging buffers and delayed stores, a thread that is in a log call returns from it, even if its staging buffer is full and it has to wait for the background thread, and its message is decoded from the files from some time on.", "quantifier": "all programs, all infinite executions that are fair to the background thread, the disk, the pending stores and the logging threads, any number of threads, every moment of a log call", "why_tests_cant": "A call that waits for ever and one that waits long look the same to a test; whether the space is always freed depends on every interleaving of both threads and every delay of their stores.", "anchors": ["runtime/RuntimeLogger.cc: reserveSpaceInternal 741-812, peek 826-844, compressionThreadMain 354-629", "runtime/RuntimeLogger.h: reserveProducerSpace 333-354, consume 373-377", "runtime/NanoLogCpp17.h: log 1015-1047"]}
{"id": "C69", "title": "sync and setLogFile return over byte-wise staging buffers", "statement": "In every fair execution of the runtime with byte-wise staging buffers and delayed stores, a call of sync or setLogFile returns if at some time logging stops; and from some time on everything that has been logged is decoded from the files, without any call of sync, although some of it was still in a store buffer when logging stopped.", "quantifier": "all programs, all infinite executions that are fair to the background thread, the disk and the pending stores and in which from some time on no log call returns, any number of threads", "why_tests_cant": "Whether the search for two passes without output ends depends on when delayed stores of other threads become visible; a lost notification shows only in rare interleavings, as a hang.", "anchors": ["runtime/RuntimeLogger.cc: compressionThreadMain 354-629, setLogFile_internal 632-675, sync 719-729", "runtime/RuntimeLogger.cc: peek 826-844","runtime/RuntimeLogger.h: consume 373-377"]}
{"id": "C70", "title": "Ordered decompression with pointers, free list and heaps", "statement": "decompressTo, with fragments as objects reached by pointers in three vectors arranged by std::make_heap, pop_heap and push_heap and with the free list, always takes a fragment with the smallest next time stamp, prints each message of the file exactly once, keeps every fragment in exactly one place (free list, one stage, or bufferFragment) and returns all of them; the destructor deletes every fragment exactly once.", "quantifier": "all files, also damaged ones, all sequences of earlier decompressions with the same decoder, any number of extents, fragments and messages, any time stamps", "why_tests_cant": "The front's time stamp is changed before pop_heap is called, outside the contract of the library; whether heaps of all shapes and with equal keys are repaired and whether a pointer is ever in two vectors cannot be covered by samples.", "anchors": ["runtime/Log.cc: ~Decoder 1109-1121, allocateBufferFragment 1129-1138, freeBufferFragment 1147-1152, compareBufferFragments 1799-1804, decompressTo 1816-1967"]}
{"id": "C71", "title": "A crash loses only the tail, also for ordered decompression", "statement": "If a log file is cut at any byte, decompressTo ends normally and prints an interleaving of exactly the extents that are complete in the file, each in its own order, among them everything that operations finished in front of the cut had written; if these extents meet the conditions of C26 the output is in time order. Complete executions in front of a cut one are printed as if the file were not cut.", "quantifier": "all runs of the encoder, all cut positions (inside a checkpoint, dictionary, extent or padding), all choices among equal time stamps, any fragments left by earlier decompressions", "why_tests_cant": "The cut interacts with the number of stages buffered, the time stamps, the dictionary entries read before the cut and the fragment taken for the cut extent; samples cover few of these combinations.", "anchors": ["runtime/Log.cc: decompressTo 1816-1967, readDictionaryFragment 990-1075, readBufferExtent 1193-1237, readDictionary 646-707"]}
{"id": "C72", "title": "Damage behind a valid log does not reach the messages in front of it", "statement": "Whatever bytes follow the log of a run in the file, the decoder opens it, and if it ends without abort it has delivered all messages of the run first, in order.", "quantifier": "all runs of the encoder, all byte strings behind them, each decoding interface", "why_tests_cant": "All byte strings behind the log: any record type, length or dictionary, also such that the decoder stops at once or goes on for long.", "anchors": ["runtime/Log.cc: internalDecompressUnordered 1724-1783, getNextLogStatement 1987-2057, decompressTo 1816-1967"]}
{"id": "C73", "title": "The default decompressor prints what was logged, each thread in order", "statement": "At every moment of every execution, each log file is decompressed by the ordered decompressor without error, and over all files it prints, for every thread, the messages of the first calls this thread had to record, each once, with format, arguments and time stamp of the call, and nothing else; in call order if the time stamps of the thread increase. Once buffers are drained, it prints all of them.", "quantifier": "all programs, numbers of threads, interleavings with delayed stores, disk progress (also in the middle of a write), configurations, all earlier uses of the decoder object", "why_tests_cant": "Needs all interleavings of logging threads, the background thread and the disk, combined with all distributions of the messages over stages of the decompressor.", "anchors": ["runtime/NanoLogCpp17.h: log 996-1046", "runtime/RuntimeLogger.cc: compressionThreadMain 353-629", "runtime/Log.cc: decompressTo 1816-1967, encodeLogMsgs 307-402"]}
{"id": "C74", "title": "The default decompressor prints every message in the end", "statement": "In every fair execution, whatever a call that has returned had logged is printed by the ordered decompressor from some time on, however often and at whatever moment it is run, each message once, and each thread's messages in call order if its time stamps increase; and when sync has returned, everything logged before is printed.", "quantifier": "all programs, all fair infinite executions (threads log, sync, switch files and end for ever), all moments at which the file is read, all earlier uses of the decoder object", "why_tests_cant": "Infinite executions under a fairness assumption; a test sees finite runs of one scheduler.", "anchors": ["runtime/RuntimeLogger.cc: compressionThreadMain 353-629, sync 719-729", "runtime/Log.cc: decompressTo 1816-1967"]}
{"id": "C75", "title": "Ordered decompression never turns an ordered pair of messages round", "statement": "If each thread's time stamps increase, any two messages that are in the log files in the order of their time stamps are printed by the ordered decompressor in this order; files in the order of time are printed as they are. What was in the files at some moment stays in front of what comes later and is printed before every later message with a larger time stamp.", "quantifier": "all programs, numbers of threads, interleavings with delayed stores, disk progress, configurations, pairs of moments of an execution, all earlier uses of the decoder object", "why_tests_cant": "Needs all interleavings of logging threads, the background thread and the disk, combined with all distributions of the messages over stages of the decompressor, and all pairs of messages.", "anchors": ["runtime/RuntimeLogger.cc: compressionThreadMain 348-630, sync 719-729", "runtime/Log.cc: decompressTo 1816-1967, encodeLogMsgs 258-346"]}
{"id": "C76", "title": "sync separates earlier from later messages in the ordered output", "statement": "What was logged by calls that had returned before sync was called is printed by the ordered decompressor, whenever it is run later, before every message of any thread that is logged after sync has returned with a larger time stamp.", "quantifier": "all programs, numbers of threads, interleavings with delayed stores, disk progress, configurations, all moments after sync has returned, all earlier uses of the decoder object", "why_tests_cant": "Needs all interleavings before, during and after sync, combined with all distributions of the messages over stages of the decompressor.", "anchors": ["runtime/RuntimeLogger.cc: sync 719-729, compressionThreadMain 348-630", "runtime/Log.cc: decompressTo 1816-1967, encodeLogMsgs 258-346"]}
{"id": "C77", "title": "The end of the process, from the log statement to the ordered output", "statement": "When the destructor of the runtime has ended, the ordered decompressor accepts every log file and prints for each thread its first recorded calls, each once, among them all that had returned (with their stores in memory) when the destructor began, in call order if the thread's time stamps increase; threads that are then outside of log statements and log nothing more get exactly their recorded calls. No step after the destructor changes a file or the output buffers, and nothing undefined happens during it unless another thread is in setLogFile.", "quantifier": "all programs, numbers of threads, interleavings with delayed stores and disk progress before, during and after the destructor, configurations, all earlier uses of the decoder object", "why_tests_cant": "Needs all interleavings of logging threads, store buffers, the background thread and the disk at the end of the process, and all distributions of the messages over stages of the decompressor.", "anchors": ["runtime/RuntimeLogger.cc: ~RuntimeLogger 109-136, sync 719-729, compressionThreadMain 348-630", "runtime/RuntimeLogger.h: StagingBuffer 214-500, StagingBufferDestroyer 502-520", "runtime/Log.cc: decompressTo 1816-1967"]}
{"id": "C78", "title": "The end of the process is reached, and then everything is in the ordered output", "statement": "In every fair infinite execution in which the destructor of the runtime begins and the threads eventually stop logging, the destructor ends; from then on, for ever, the ordered decompressor accepts every log file and prints for each thread its first recorded calls, among them all that had returned when the destructor began; threads that were then outside of log statements and log nothing more get exactly their recorded calls, in call order if their time stamps increase.", "quantifier": "all programs, numbers of threads, fair infinite executions with delayed stores and disk progress, configurations, all earlier uses of the decoder object", "why_tests_cant": "A liveness claim over infinite executions and all schedules; a test can only wait for a while.", "anchors": ["runtime/RuntimeLogger.cc: ~RuntimeLogger 109-136, sync 719-729, compressionThreadMain 348-630", "runtime/RuntimeLogger.h: StagingBuffer 214-500, StagingBufferDestroyer 502-520", "runtime/Log.cc: decompressTo 1816-1967"]}
{"id": "C79", "title": "Several processes append to one log file", "statement": "A log file to which any number of processes have appended one after the other (or one process, by calling setLogFile with the file in use) is decompressed to what the separate logs would give, one after the other: process by process, for every thread the messages of the first calls it had to record, in order; the last process may be at any moment of its execution or killed. What was printed once is still printed first whatever is appended later.", "quantifier": "all numbers of processes, their programs, threads, interleavings, store delays, disk progress, all appended bytes", "why_tests_cant": "Needs all sequences of processes, each with all its interleavings, and all moments at which the last is killed.", "anchors": ["runtime/RuntimeLogger.cc: RuntimeLogger 40-106, setLogFile_internal 633-675, compressionThreadMain 348-630", "runtime/Config.h: FILE_PARAMS 28, DEFAULT_LOG_FILE 31", "runtime/Log.cc: open 1085-1105, readDictionary 647-700, readDictionaryFragment 991-1066, internalDecompressUnordered 1725-1790"]}
{"id": "C80", "title": "sync and the end of the process when threads have ended", "statement": "Also in a program whose threads end, so that the background thread deletes their staging buffers, a message of a log call that had returned, with its stores in memory, before sync (or the destructor of the logger) was called is in the files when sync has been woken (in the ordered output when the destructor has ended), each message once and for every thread in the order of its calls.", "quantifier": "all programs, threads, interleavings, deletions of buffers, store delays, disk progress", "why_tests_cant": "Needs all positions of the deletion of a buffer relative to the passes of the background thread and to the calls of sync.", "anchors": ["runtime/RuntimeLogger.cc: sync 719-729, ~RuntimeLogger 109-137, compressionThreadMain 418-529", "runtime/RuntimeLogger.h: StagingBufferDestroyer 511-516, checkCanDelete 386-389"]}
{"id": "C81", "title": "Ordered decompression of a log file of several processes", "statement": "A log file to which several processes have appended one after the other is decompressed in order (decompressTo) process by process: each message once, for every thread in the order of its calls, with its own checkpoint and static information; the time stamps of different processes are not compared; the last process may have been killed at any moment.", "quantifier": "all numbers of processes, programs, threads, interleavings, disk progress of the last process, states of the decoder's buffers", "why_tests_cant": "Needs all sequences of processes and every point at which the last one may be killed; whether the checkpoint of the next process is read too early depends on the stages in the decoder's memory.", "anchors": ["runtime/Log.cc: decompressTo 1816-1967, readDictionary 646-707, open 1085-1105", "runtime/RuntimeLogger.cc: setLogFile_internal 608-668"]}
