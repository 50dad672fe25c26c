.lake/
**/.lake/
